import Mathlib.Data.List.Nodup
import Verif.Matrix.Make

namespace Mosml.Matrix

open Mosml.Arrays

variable {V X : Type}

/-! ## tabulate RowMajor -/

theorem tabRow_eq (g : Int → Int → Prog X V) (n : Int) (hn : 0 ≤ n ∧ n ≤ maxLen) (i : Int)
    (h : List (List V)) (x : X) :
    tabulateArray n (fun j => effect (g i j)) (⟨h, x⟩ : World V X) =
      match results (fun j => g i j) (idx 0 n.toNat) x with
      | .ok xs x' => .ok h.length ⟨h ++ [xs], x'⟩
      | .raise e x' => .raise e ⟨h, x'⟩
      | .bad => .bad := by
  rw [(C75_tabulate _ n _).2, if_pos hn, bind_apply, collect_results, results_effect]
  cases results (fun j => g i j) (idx 0 n.toNat) x <;> rfl

theorem tabRows_ok (g : Int → Int → Prog X V) (n : Int) (hn : 0 ≤ n ∧ n ≤ maxLen)
    (is : List Int) (h : List (List V)) (x x' : X) (xss : List (List V))
    (he : results (fun i => results (fun j => g i j) (idx 0 n.toNat)) is x = .ok xss x') :
    results (fun i => tabulateArray n (fun j => effect (g i j))) is (⟨h, x⟩ : World V X) =
      .ok (locs h xss.length) ⟨h ++ xss, x'⟩ := by
  induction is generalizing h x xss with
  | nil => cases he; simp [results, pure_apply, locs]
  | cons i is ih =>
    rw [results_cons] at he ⊢
    rw [tabRow_eq g n hn]
    cases e : results (fun j => g i j) (idx 0 n.toNat) x with
    | bad => rw [e] at he; cases he
    | raise y x1 => rw [e] at he; cases he
    | ok xs x1 =>
      rw [e] at he
      simp only at he ⊢
      cases e' : results (fun i => results (fun j => g i j) (idx 0 n.toNat)) is x1 with
      | bad => rw [e'] at he; cases he
      | raise y x2 => rw [e'] at he; cases he
      | ok yss x2 =>
        rw [e'] at he
        cases he
        rw [ih (h ++ [xs]) x1 yss e']
        simp only
        congr 1
        · simp [locs, List.range'_succ]
        · simp

theorem tabRows_raise (g : Int → Int → Prog X V) (n : Int) (hn : 0 ≤ n ∧ n ≤ maxLen)
    (is : List Int) (h : List (List V)) (x x' : X) (e : Exn)
    (he : results (fun i => results (fun j => g i j) (idx 0 n.toNat)) is x = .raise e x') :
    ∃ h', h <+: h' ∧
    results (fun i => tabulateArray n (fun j => effect (g i j))) is (⟨h, x⟩ : World V X) =
      .raise e ⟨h', x'⟩ := by
  induction is generalizing h x with
  | nil => cases he
  | cons i is ih =>
    rw [results_cons] at he ⊢
    rw [tabRow_eq g n hn]
    cases e1 : results (fun j => g i j) (idx 0 n.toNat) x with
    | bad => rw [e1] at he; cases he
    | raise y x1 => rw [e1] at he; cases he; exact ⟨h, List.prefix_rfl, rfl⟩
    | ok xs x1 =>
      rw [e1] at he
      simp only at he ⊢
      cases e' : results (fun i => results (fun j => g i j) (idx 0 n.toNat)) is x1 with
      | bad => rw [e'] at he; cases he
      | ok yss x2 => rw [e'] at he; cases he
      | raise y x2 =>
        rw [e'] at he
        cases he
        obtain ⟨h', hp, e2⟩ := ih (h ++ [xs]) x1 e'
        refine ⟨h', (List.prefix_append _ _).trans hp, ?_⟩
        rw [e2]

theorem results_rowMajor (g : Int → Int → Prog X V) (m n : Nat) (x : X) :
    results (fun p : Int × Int => g p.1 p.2) (order .rowMajor 0 m 0 n) x =
      match results (fun i => results (fun j => g i j) (idx 0 n)) (idx 0 m) x with
      | .ok yss w' => .ok yss.flatten w'
      | .raise e w' => .raise e w'
      | .bad => .bad := by
  simp only [order]
  rw [results_flatMap]
  have : (fun k : Int => results (fun p : Int × Int => g p.1 p.2)
      ((idx 0 n).map (fun j => (k, j)))) = fun i => results (fun j => g i j) (idx 0 n) := by
    funext i x
    rw [results_map]
  rw [this]
  cases results (fun i => results (fun j => g i j) (idx 0 n)) (idx 0 m) x <;> rfl

/-- Reading a matrix row by row. -/
theorem elem_rowMajor (M : List (List V)) (n : Nat) (hM : ∀ xs ∈ M, xs.length = n) :
    (order .rowMajor 0 M.length 0 n).map (elem M) = M.flatten.map some := by
  have hrow : ∀ xs : List V, xs.length = n → ∀ (c : Nat) (ys zs : List V), xs = ys ++ zs →
      ys.length = c → (idx (c : Int) zs.length).map (fun j : Int => xs[j.toNat]?) = zs.map some := by
    intro xs hx c ys zs
    induction zs generalizing c ys with
    | nil => intro _ _; rfl
    | cons z zs ih =>
      intro e hc
      rw [List.length_cons, idx_succ, List.map_cons, List.map_cons]
      have e1 : xs[((c : Int)).toNat]? = some z := by
        rw [e, Int.toNat_natCast, List.getElem?_append_right (by omega)]
        simp [hc]
      rw [e1]
      have := ih (c + 1) (ys ++ [z]) (by simp [e]) (by simp [hc])
      push_cast at this
      rw [this]
  have key : ∀ (c : Nat) (A B : List (List V)), M = A ++ B → A.length = c →
      ((idx (c : Int) B.length).flatMap (fun i => (idx 0 n).map (fun j => (i, j)))).map (elem M) =
        B.flatten.map some := by
    intro c A B
    induction B generalizing c A with
    | nil => intro _ _; rfl
    | cons xs B ih =>
      intro e hc
      rw [List.length_cons, idx_succ, List.flatMap_cons, List.map_append, List.flatten_cons,
        List.map_append]
      have := ih (c + 1) (A ++ [xs]) (by simp [e]) (by simp [hc])
      push_cast at this
      rw [this]
      congr 1
      have hx : xs.length = n := hM xs (by simp [e])
      have e1 : M[((c : Int)).toNat]? = some xs := by
        rw [e, Int.toNat_natCast, List.getElem?_append_right (by omega)]
        simp [hc]
      have := hrow xs hx 0 [] xs rfl rfl
      rw [hx] at this
      push_cast at this
      rw [← this, List.map_map]
      apply List.map_congr_left
      intro j _
      simp only [Function.comp, elem, e1]
      rfl
  exact key 0 [] M rfl rfl

theorem tabulateRow_ok (m n : Int) (hm : 0 ≤ m ∧ m ≤ maxLen) (hn : 0 ≤ n ∧ n ≤ maxLen)
    (g : Int → Int → Prog X V) (w : World V X) (vs : List V) (x' : X)
    (he : results (fun p : Int × Int => g p.1 p.2) (order .rowMajor 0 m.toNat 0 n.toNat) w.ext =
      .ok vs x') :
    ∃ a w', tabulateRow m n (fun i j => effect (g i j)) w = .ok a w' ∧ w'.ext = x' ∧
      Made w' a ∧ a.m = m ∧ a.n = n ∧ New w w' a ∧
      (order .rowMajor 0 m.toNat 0 n.toNat).map (elem (mat w' a)) = vs.map some := by
  obtain ⟨h, x⟩ := w
  rw [results_rowMajor] at he
  cases e : results (fun i => results (fun j => g i j) (idx 0 n.toNat)) (idx 0 m.toNat) x with
  | bad => rw [e] at he; cases he
  | raise y x1 => rw [e] at he; cases he
  | ok xss x1 =>
    rw [e] at he
    cases he
    have hl : xss.length = m.toNat := by
      rw [results_length _ _ _ _ _ e]; simp [idx]
    have hw : ∀ xs ∈ xss, xs.length = n.toNat := by
      refine results_each _ _ _ _ _ _ ?_ e
      intro i _ w y w' hy
      rw [results_length _ _ _ _ _ hy]
      simp [idx]
    obtain ⟨h1, h2, h3⟩ := made_new h xss x' n hn.1 hn.2 (by omega) (fun xs hxs => by
      rw [hw xs hxs]; omega)
    have hml : (xss.length : Int) = m := by omega
    rw [hml] at h1 h2 h3
    refine ⟨⟨locs h xss.length, m, n⟩, ⟨h ++ xss, x'⟩, ?_, rfl, h1, rfl, rfl, h3 x, ?_⟩
    · simp only [tabulateRow, bind_apply]
      rw [vecTab, if_pos hm, tabRows_ok g n hn _ h x x' xss e]
      rfl
    · rw [h2, ← hl]
      exact elem_rowMajor xss n.toNat hw

theorem tabulateRow_raise (m n : Int) (hm : 0 ≤ m ∧ m ≤ maxLen) (hn : 0 ≤ n ∧ n ≤ maxLen)
    (g : Int → Int → Prog X V) (w : World V X) (e : Exn) (x' : X)
    (he : results (fun p : Int × Int => g p.1 p.2) (order .rowMajor 0 m.toNat 0 n.toNat) w.ext =
      .raise e x') :
    ∃ w', tabulateRow m n (fun i j => effect (g i j)) w = .raise e w' ∧ w'.ext = x' ∧
      w.heap <+: w'.heap := by
  obtain ⟨h, x⟩ := w
  rw [results_rowMajor] at he
  cases e1 : results (fun i => results (fun j => g i j) (idx 0 n.toNat)) (idx 0 m.toNat) x with
  | bad => rw [e1] at he; cases he
  | ok y x1 => rw [e1] at he; cases he
  | raise y x1 =>
    rw [e1] at he
    cases he
    obtain ⟨h', hp, e2⟩ := tabRows_raise g n hn _ h x x' e e1
    refine ⟨⟨h', x'⟩, ?_, rfl, hp⟩
    simp only [tabulateRow, bind_apply]
    rw [vecTab, if_pos hm, e2]

/-! ## tabulate ColMajor -/

/-- A matrix with one element replaced. -/
def put2 (M : List (List V)) (p : Int × Int) (v : V) : List (List V) :=
  M.set p.1.toNat ((M.getD p.1.toNat []).set p.2.toNat v)

theorem put2_length (M : List (List V)) (p : Int × Int) (v : V) : (put2 M p v).length = M.length := by
  simp [put2]

theorem put2_widths (M : List (List V)) (p : Int × Int) (v : V) (n : Nat)
    (h : ∀ xs ∈ M, xs.length = n) : ∀ xs ∈ put2 M p v, xs.length = n := by
  intro xs hx
  simp only [put2] at hx
  obtain ⟨i, hi, rfl⟩ := List.getElem_of_mem hx
  rw [List.length_set] at hi
  rw [List.getElem_set]
  split
  · next e =>
    subst e
    simp only [List.length_set, List.getD_eq_getElem?_getD, List.getElem?_eq_getElem hi,
      Option.getD_some]
    exact h _ (List.getElem_mem _)
  · exact h _ (List.getElem_mem _)

theorem elem_put2 (M : List (List V)) (p q : Int × Int) (v : V) (hp1 : 0 ≤ p.1) (hp2 : 0 ≤ p.2)
    (hq1 : 0 ≤ q.1) (hq2 : 0 ≤ q.2) (hp : p.1 < M.length)
    (hpn : p.2 < (M.getD p.1.toNat []).length) :
    elem (put2 M p v) q = if p = q then some v else elem M q := by
  obtain ⟨a, b⟩ := p
  obtain ⟨c, d⟩ := q
  simp only at hp1 hp2 hq1 hq2 hp hpn
  have hM : M[a.toNat]? = some (M.getD a.toNat []) := by
    rw [List.getD_eq_getElem?_getD, List.getElem?_eq_getElem (by omega)]
    rfl
  simp only [elem, put2, List.getElem?_set, Prod.mk.injEq]
  by_cases h1 : a = c
  · subst h1
    rw [if_pos rfl, if_pos (by omega), hM]
    simp only [Option.bind_eq_bind, Option.bind_some, List.getElem?_set, true_and]
    by_cases h2 : b = d
    · subst h2
      rw [if_pos rfl, if_pos (by omega), if_pos rfl]
    · rw [if_neg (by omega), if_neg h2]
  · rw [if_neg (by omega), if_neg (by simp [h1])]

theorem set_append_right (h M : List (List V)) (k : Nat) (xs : List V) :
    (h ++ M).set (h.length + k) xs = h ++ M.set k xs := by
  rw [List.set_append_right _ _ (by omega)]
  congr 2
  omega

theorem getD_append_right (h M : List (List V)) (k : Nat) :
    (h ++ M).getD (h.length + k) [] = M.getD k [] := by
  rw [List.getD_eq_getElem?_getD, List.getElem?_append_right (by omega), List.getD_eq_getElem?_getD]
  congr 2
  omega

/-- One call of `f` and one update. -/
theorem setCol_eq (g : Int → Int → Prog X V) (h M : List (List V)) (x : X) (i j : Int)
    (hi : 0 ≤ i ∧ i < M.length) (hj : 0 ≤ j ∧ j < (M.getD i.toNat []).length) :
    setCol (fun i j => effect (g i j)) j i ((locs h M.length).getD i.toNat 0)
      (⟨h ++ M, x⟩ : World V X) =
      match g i j x with
      | .ok v x' => .ok () ⟨h ++ put2 M (i, j) v, x'⟩
      | .raise e x' => .raise e ⟨h ++ M, x'⟩
      | .bad => .bad := by
  simp only [setCol, bind_apply, effect_apply]
  have hl : (locs h M.length).getD i.toNat 0 = h.length + i.toNat := by
    rw [getD_get _ _ (by simp [locs]; omega)]
    simp [locs]
  rw [hl]
  cases g i j x with
  | bad => rfl
  | raise e x' => rfl
  | ok v x' =>
    simp only [withHeap]
    rw [(C75_subscript (⟨h ++ M, x'⟩ : World V X) (.arr 0) (h.length + i.toNat) j v).2.2.1
      ⟨hj.1, by rw [getD_append_right]; exact hj.2⟩]
    simp only [withArr, getD_append_right, set_append_right, put2]

/-- A walk of `setCol` over positions. -/
theorem fill_ok (g : Int → Int → Prog X V) (h : List (List V)) (m n : Nat) :
    ∀ (ps : List (Int × Int)) (M : List (List V)) (x x' : X) (vs : List V),
    (∀ p ∈ ps, (0 ≤ p.1 ∧ p.1 < m) ∧ 0 ≤ p.2 ∧ p.2 < n) → M.length = m →
    (∀ xs ∈ M, xs.length = n) →
    results (fun p : Int × Int => g p.1 p.2) ps x = .ok vs x' →
    walk (fun (p : Int × Int) (_ : Unit) => setCol (fun i j => effect (g i j)) p.2 p.1
      ((locs h m).getD p.1.toNat 0)) ps () (⟨h ++ M, x⟩ : World V X) =
    .ok () ⟨h ++ (ps.zip vs).foldl (fun M q => put2 M q.1 q.2) M, x'⟩ := by
  intro ps
  induction ps with
  | nil => intro M x x' vs _ _ _ he; cases he; rfl
  | cons p ps ih =>
    intro M x x' vs hp hl hM he
    subst hl
    obtain ⟨hp1, hp2⟩ := hp p (by simp)
    have hrow : (M.getD p.1.toNat []).length = n := by
      rw [List.getD_eq_getElem?_getD, List.getElem?_eq_getElem (by omega)]
      exact hM _ (List.getElem_mem _)
    rw [results_cons] at he
    rw [walk_cons, setCol_eq g h M x p.1 p.2 hp1 ⟨hp2.1, by omega⟩]
    cases e : g p.1 p.2 x with
    | bad => rw [e] at he; cases he
    | raise y x1 => rw [e] at he; cases he
    | ok v x1 =>
      rw [e] at he
      simp only at he ⊢
      cases e' : results (fun p : Int × Int => g p.1 p.2) ps x1 with
      | bad => rw [e'] at he; cases he
      | raise y x2 => rw [e'] at he; cases he
      | ok vs' x2 =>
        rw [e'] at he
        cases he
        have := ih (put2 M p v) x1 x' vs' (fun q hq => hp q (by simp [hq])) (put2_length M p v)
          (put2_widths M p v n hM) e'
        rw [List.zip_cons_cons, List.foldl_cons]
        exact this

theorem fill_raise (g : Int → Int → Prog X V) (h : List (List V)) (m n : Nat) :
    ∀ (ps : List (Int × Int)) (M : List (List V)) (x x' : X) (e : Exn),
    (∀ p ∈ ps, (0 ≤ p.1 ∧ p.1 < m) ∧ 0 ≤ p.2 ∧ p.2 < n) → M.length = m →
    (∀ xs ∈ M, xs.length = n) →
    results (fun p : Int × Int => g p.1 p.2) ps x = .raise e x' →
    ∃ M', walk (fun (p : Int × Int) (_ : Unit) => setCol (fun i j => effect (g i j)) p.2 p.1
      ((locs h m).getD p.1.toNat 0)) ps () (⟨h ++ M, x⟩ : World V X) = .raise e ⟨h ++ M', x'⟩ := by
  intro ps
  induction ps with
  | nil => intro M x x' vs _ _ _ he; cases he
  | cons p ps ih =>
    intro M x x' ex hp hl hM he
    subst hl
    obtain ⟨hp1, hp2⟩ := hp p (by simp)
    have hrow : (M.getD p.1.toNat []).length = n := by
      rw [List.getD_eq_getElem?_getD, List.getElem?_eq_getElem (by omega)]
      exact hM _ (List.getElem_mem _)
    rw [results_cons] at he
    rw [walk_cons, setCol_eq g h M x p.1 p.2 hp1 ⟨hp2.1, by omega⟩]
    cases e : g p.1 p.2 x with
    | bad => rw [e] at he; cases he
    | raise y x1 => rw [e] at he; cases he; exact ⟨M, rfl⟩
    | ok v x1 =>
      rw [e] at he
      simp only at he ⊢
      cases e' : results (fun p : Int × Int => g p.1 p.2) ps x1 with
      | bad => rw [e'] at he; cases he
      | ok y x2 => rw [e'] at he; cases he
      | raise y x2 =>
        rw [e'] at he
        cases he
        exact ih (put2 M p v) x1 x' ex (fun q hq => hp q (by simp [hq])) (put2_length M p v)
          (put2_widths M p v n hM) e'

/-- What is read after a walk over distinct positions. -/
theorem fill_elem (m n : Nat) : ∀ (ps : List (Int × Int)) (vs : List V) (M : List (List V)),
    (∀ p ∈ ps, (0 ≤ p.1 ∧ p.1 < m) ∧ 0 ≤ p.2 ∧ p.2 < n) → M.length = m →
    (∀ xs ∈ M, xs.length = n) → ps.Nodup → vs.length = ps.length →
    ((ps.zip vs).foldl (fun M q => put2 M q.1 q.2) M).length = m ∧
    (∀ xs ∈ (ps.zip vs).foldl (fun M q => put2 M q.1 q.2) M, xs.length = n) ∧
    ps.map (elem ((ps.zip vs).foldl (fun M q => put2 M q.1 q.2) M)) = vs.map some ∧
    ∀ q : Int × Int, q ∉ ps → 0 ≤ q.1 → 0 ≤ q.2 →
      elem ((ps.zip vs).foldl (fun M q => put2 M q.1 q.2) M) q = elem M q := by
  intro ps
  induction ps with
  | nil =>
    intro vs M _ hl hM _ hv
    obtain rfl : vs = [] := List.length_eq_zero_iff.1 hv
    exact ⟨hl, hM, rfl, fun q _ _ _ => rfl⟩
  | cons p ps ih =>
    intro vs M hp hl hM hnd hv
    cases vs with
    | nil => simp at hv
    | cons v vs =>
      subst hl
      obtain ⟨hp1, hp2⟩ := hp p (by simp)
      have hrow : (M.getD p.1.toNat []).length = n := by
        rw [List.getD_eq_getElem?_getD, List.getElem?_eq_getElem (by omega)]
        exact hM _ (List.getElem_mem _)
      rw [List.nodup_cons] at hnd
      obtain ⟨i1, i2, i3, i4⟩ := ih vs (put2 M p v) (fun q hq => hp q (by simp [hq]))
        (put2_length M p v) (put2_widths M p v n hM) hnd.2 (by simpa using hv)
      rw [List.zip_cons_cons, List.foldl_cons]
      refine ⟨i1, i2, ?_, ?_⟩
      · rw [List.map_cons, List.map_cons, i3, i4 p hnd.1 hp1.1 hp2.1,
          elem_put2 M p p v hp1.1 hp2.1 hp1.1 hp2.1 (by omega) (by omega), if_pos rfl]
      · intro q hq h1 h2
        rw [i4 q (fun hc => hq (by simp [hc])) h1 h2,
          elem_put2 M p q v hp1.1 hp2.1 h1 h2 (by omega) (by omega), if_neg]
        intro hc
        exact hq (by simp [hc])

theorem idx_nodup (j : Int) (k : Nat) : (idx j k).Nodup := by
  simp only [idx]
  refine List.Nodup.map ?_ List.nodup_range
  intro a b h
  simpa using h

theorem order_nodup (tr : Traversal) (r : Int) (h : Nat) (c : Int) (k : Nat) :
    (order tr r h c k).Nodup := by
  have key : ∀ (is : List Int), is.Nodup → ∀ (q : Int → Int → Int × Int),
      (∀ i j i' j', q i j = q i' j' → i = i' ∧ j = j') → ∀ js : List Int, js.Nodup →
      (is.flatMap (fun i => js.map (q i))).Nodup := by
    intro is his q hq js hjs
    rw [List.nodup_flatMap]
    refine ⟨fun i _ => hjs.map (fun a b e => (hq _ _ _ _ e).2), ?_⟩
    refine his.imp ?_
    intro i i' hne
    simp only [Function.onFun]
    rw [List.disjoint_left]
    intro p hp hp'
    simp only [List.mem_map] at hp hp'
    obtain ⟨a, _, rfl⟩ := hp
    obtain ⟨b, _, e⟩ := hp'
    exact hne (hq _ _ _ _ e).1.symm
  cases tr with
  | rowMajor =>
    exact key _ (idx_nodup _ _) (fun i j => (i, j)) (fun _ _ _ _ e => by simpa using e) _
      (idx_nodup _ _)
  | colMajor =>
    exact key _ (idx_nodup _ _) (fun j i => (i, j)) (fun _ _ _ _ e => by
      simp only [Prod.mk.injEq] at e; exact ⟨e.2, e.1⟩) _ (idx_nodup _ _)

/-- The updates of one column, from a row on. -/
theorem colApp (f : Int → Int → Prog (World V X) V) (arr : List Nat) (c r : Int) (k : Nat)
    (hr : 0 ≤ r) (hk : r + k = arr.length) (hm : (arr.length : Int) ≤ maxLen) (w : World V X) :
    vecOp (Arrays.appi (fun r a => inner (setCol f c r a)) ⟨.vec arr, r, k⟩) w =
      walk (fun (p : Int × Int) (_ : Unit) => setCol f p.2 p.1 (arr.getD p.1.toNat 0))
        ((idx r k).map (fun i => (i, c))) () w := by
  refine vecOp_lift _ _ _ ?_
  have hv : Valid (V := Nat) ⟨[], w⟩ ⟨.vec arr, r, k⟩ :=
    ⟨trivial, hr, by simp only; omega, by simp only [cells]; omega, hm⟩
  rw [(C75_app _ _ hv).1 _ (fun i xs => steady_inner _), each_walk, walk_map]
  simp only [indices, Int.toNat_natCast]
  exact walk_inner arr (fun i xs (_ : Unit) => setCol f c i xs) [] _ (by
    intro j hj
    rw [mem_idx] at hj
    omega) () w

theorem tabLoop_eq (f : Int → Int → Prog (World V X) V) (arr : List Nat) (n : Int)
    (hn : n ≤ maxLen) (hm : (arr.length : Int) ≤ maxLen) :
    ∀ (k fuel : Nat) (c : Int) (w : World V X), k < fuel → n = c + k → 0 ≤ c →
    tabLoop f arr n fuel c w =
      walk (fun (p : Int × Int) (_ : Unit) => setCol f p.2 p.1 (arr.getD p.1.toNat 0))
        (order .colMajor 0 arr.length c k) () w := by
  have hml : maxLen = 18014398509481983 := rfl
  have hmi : minInt = -4611686018427387904 := rfl
  have hma : maxInt = 4611686018427387903 := rfl
  intro k
  induction k with
  | zero =>
    intro fuel c w hf hk hc
    obtain ⟨fuel, rfl⟩ : ∃ n, fuel = n + 1 := ⟨fuel - 1, by omega⟩
    simp only [tabLoop]
    rw [if_neg (by omega)]
    rfl
  | succ k ih =>
    intro fuel c w hf hk hc
    obtain ⟨fuel, rfl⟩ : ∃ n, fuel = n + 1 := ⟨fuel - 1, by omega⟩
    simp only [tabLoop]
    rw [if_pos (by omega), chk_ok (by omega) (by omega)]
    simp only [order, idx_succ, List.flatMap_cons]
    rw [walk_append, bind_apply]
    have e : vecOp (whole (.vec arr) (Arrays.appi (fun r a => inner (setCol f c r a)))) w =
        vecOp (Arrays.appi (fun r a => inner (setCol f c r a)) ⟨.vec arr, 0, arr.length⟩) w := rfl
    rw [e, colApp f arr c 0 arr.length le_rfl (by omega) hm]
    cases walk (fun (p : Int × Int) (_ : Unit) => setCol f p.2 p.1 (arr.getD p.1.toNat 0))
        ((idx 0 arr.length).map (fun i => (i, c))) () w with
    | bad => rfl
    | raise x w' => rfl
    | ok u w' => exact ih fuel (c + 1) w' (by omega) (by omega) (by omega)

theorem order_col_cons (m n : Nat) :
    order .colMajor 0 (m + 1) 0 (n + 1) =
      (0, 0) :: ((idx 1 m).map (fun i => (i, 0)) ++ order .colMajor 0 (m + 1) 1 n) := by
  simp only [order, idx_succ, List.flatMap_cons, List.map_cons, List.cons_append, zero_add]

/-- The body of `tabulate ColMajor` after the first call of `f`. -/
theorem tabCol_eq (m n : Nat) (hm : ((m + 1 : Nat) : Int) ≤ maxLen) (hn : ((n + 1 : Nat) : Int) ≤ maxLen)
    (f : Int → Int → Prog (World V X) V) (w : World V X) :
    tabulate .colMajor (m + 1 : Nat) (n + 1 : Nat) f w =
      match f 0 0 w with
      | .ok v w1 =>
        (match walk (fun (p : Int × Int) (_ : Unit) => setCol f p.2 p.1
            ((locs w1.heap (m + 1)).getD p.1.toNat 0))
            ((idx 1 m).map (fun i => (i, 0)) ++ order .colMajor 0 (m + 1) 1 n) ()
            ⟨w1.heap ++ List.replicate (m + 1) (List.replicate (n + 1) v), w1.ext⟩ with
        | .ok _ w2 => .ok ⟨locs w1.heap (m + 1), (m + 1 : Nat), (n + 1 : Nat)⟩ w2
        | .raise e w2 => .raise e w2
        | .bad => .bad)
      | .raise e w1 => .raise e w1
      | .bad => .bad := by
  simp only [tabulate]
  rw [if_pos (by omega), bind_apply]
  cases f 0 0 w with
  | bad => rfl
  | raise e w1 => rfl
  | ok v w1 =>
    simp only
    rw [bind_apply, vecTab, if_pos (by omega), results_array _ v (by omega)]
    simp only [idx, List.length_map, List.length_range, Int.toNat_natCast]
    have hlen : (locs w1.heap (m + 1)).length = m + 1 := by simp [locs]
    have e : ∀ w2 : World V X, vecOp (do
          let s ← slice (.vec (locs w1.heap (m + 1))) 1 none
          Arrays.appi (fun r a => inner (setCol f 0 r a)) s) w2 =
        vecOp (Arrays.appi (fun r a => inner (setCol f 0 r a))
          ⟨.vec (locs w1.heap (m + 1)), 1, m⟩) w2 := by
      intro w2
      obtain ⟨h1, _⟩ := slice_ok (V := Nat) ⟨[], w2⟩ (.vec (locs w1.heap (m + 1))) trivial
        (by simp only [cells, hlen]; exact hm) 1 none (by
          simp only [cells, hlen, Within]; omega)
      simp only [vecOp, bind_apply, h1]
      simp only [cells, hlen, extent]
      have : ((((m + 1 : Nat) : Int) - 1).toNat : Int) = m := by omega
      rw [this]
    rw [bind_apply, e, colApp f _ 0 1 m (by omega) (by rw [hlen]; omega) (by rw [hlen]; exact hm),
      walk_append]
    simp only [idx]
    cases walk (fun (p : Int × Int) (_ : Unit) => setCol f p.2 p.1
        ((locs w1.heap (m + 1)).getD p.1.toNat 0))
        (((List.range m).map (fun k : Nat => (1 : Int) + k)).map (fun i => (i, (0 : Int)))) ()
        ⟨w1.heap ++ List.replicate (m + 1) (List.replicate (n + 1) v), w1.ext⟩ with
    | bad => rfl
    | raise e w1 => rfl
    | ok u w2 =>
      simp only
      rw [bind_apply, tabLoop_eq f _ _ hn (by rw [hlen]; exact hm) n _ 1 w2
        (by simp only [rounds]; omega) (by omega) (by omega), hlen]
      cases walk (fun (p : Int × Int) (_ : Unit) => setCol f p.2 p.1
        ((locs w1.heap (m + 1)).getD p.1.toNat 0)) (order .colMajor 0 (m + 1) 1 n) () w2 <;> rfl

theorem tabCol_ok (m n : Nat) (hm : ((m + 1 : Nat) : Int) ≤ maxLen)
    (hn : ((n + 1 : Nat) : Int) ≤ maxLen)
    (g : Int → Int → Prog X V) (w : World V X) (vs : List V) (x' : X)
    (he : results (fun p : Int × Int => g p.1 p.2) (order .colMajor 0 (m + 1) 0 (n + 1)) w.ext =
      .ok vs x') :
    ∃ a w', tabulate .colMajor (m + 1 : Nat) (n + 1 : Nat) (fun i j => effect (g i j)) w = .ok a w' ∧
      w'.ext = x' ∧ Made w' a ∧ a.m = (m + 1 : Nat) ∧ a.n = (n + 1 : Nat) ∧ New w w' a ∧
      (order .colMajor 0 (m + 1) 0 (n + 1)).map (elem (mat w' a)) = vs.map some := by
  obtain ⟨h, x⟩ := w
  rw [tabCol_eq m n hm hn, effect_apply]
  have hnd := order_nodup .colMajor 0 (m + 1) 0 (n + 1)
  have hran : ∀ p ∈ order .colMajor 0 (m + 1) 0 (n + 1),
      (0 ≤ p.1 ∧ p.1 < ((m + 1 : Nat) : Int)) ∧ 0 ≤ p.2 ∧ p.2 < ((n + 1 : Nat) : Int) := by
    intro p hp
    obtain ⟨h1, h2⟩ := mem_order hp
    rw [mem_idx] at h1 h2
    omega
  rw [order_col_cons] at he hnd hran ⊢
  rw [results_cons] at he
  simp only at he
  cases e : g 0 0 x with
  | bad => rw [e] at he; cases he
  | raise y x1 => rw [e] at he; cases he
  | ok v x1 =>
    rw [e] at he
    simp only [withHeap] at he ⊢
    generalize hps : ((idx 1 m).map (fun i => (i, (0 : Int))) ++ order .colMajor 0 (m + 1) 1 n) = ps
      at he hnd hran ⊢
    cases e' : results (fun p : Int × Int => g p.1 p.2) ps x1 with
    | bad => rw [e'] at he; cases he
    | raise y x2 => rw [e'] at he; cases he
    | ok vs' x2 =>
      rw [e'] at he
      cases he
      have hran' := fun p hp => hran p (List.mem_cons_of_mem _ hp)
      have hM0 : (List.replicate (m + 1) (List.replicate (n + 1) v)).length = m + 1 := by simp
      have hM1 : ∀ xs ∈ List.replicate (m + 1) (List.replicate (n + 1) v), xs.length = n + 1 := by
        intro xs hx
        rw [List.eq_of_mem_replicate hx]
        simp
      rw [fill_ok g h (m + 1) (n + 1) ps _ x1 x' vs' hran' hM0 hM1 e']
      rw [List.nodup_cons] at hnd
      obtain ⟨i1, i2, i3, i4⟩ := fill_elem (m + 1) (n + 1) ps vs' _ hran' hM0 hM1 hnd.2
        (results_length _ _ _ _ _ e')
      generalize (ps.zip vs').foldl (fun M q => put2 M q.1 q.2)
        (List.replicate (m + 1) (List.replicate (n + 1) v)) = M at i1 i2 i3 i4 ⊢
      obtain ⟨k1, k2, k3⟩ := made_new h M x' ((n + 1 : Nat) : Int) (by omega) hn
        (by rw [i1]; exact hm) (fun xs hx => by rw [i2 xs hx])
      rw [i1] at k1 k2 k3
      refine ⟨_, _, rfl, rfl, k1, rfl, rfl, k3 x, ?_⟩
      rw [k2, List.map_cons, List.map_cons, i3, i4 (0, 0) hnd.1 le_rfl le_rfl]
      congr 1

theorem tabCol_raise (m n : Nat) (hm : ((m + 1 : Nat) : Int) ≤ maxLen)
    (hn : ((n + 1 : Nat) : Int) ≤ maxLen)
    (g : Int → Int → Prog X V) (w : World V X) (ex : Exn) (x' : X)
    (he : results (fun p : Int × Int => g p.1 p.2) (order .colMajor 0 (m + 1) 0 (n + 1)) w.ext =
      .raise ex x') :
    ∃ w', tabulate .colMajor (m + 1 : Nat) (n + 1 : Nat) (fun i j => effect (g i j)) w =
      .raise ex w' ∧ w'.ext = x' ∧ w.heap <+: w'.heap := by
  obtain ⟨h, x⟩ := w
  rw [tabCol_eq m n hm hn, effect_apply]
  have hran : ∀ p ∈ order .colMajor 0 (m + 1) 0 (n + 1),
      (0 ≤ p.1 ∧ p.1 < ((m + 1 : Nat) : Int)) ∧ 0 ≤ p.2 ∧ p.2 < ((n + 1 : Nat) : Int) := by
    intro p hp
    obtain ⟨h1, h2⟩ := mem_order hp
    rw [mem_idx] at h1 h2
    omega
  rw [order_col_cons] at he hran
  rw [results_cons] at he
  simp only at he
  cases e : g 0 0 x with
  | bad => rw [e] at he; cases he
  | raise y x1 => rw [e] at he; cases he; exact ⟨_, rfl, rfl, List.prefix_rfl⟩
  | ok v x1 =>
    rw [e] at he
    simp only [withHeap] at he ⊢
    generalize hps : ((idx 1 m).map (fun i => (i, (0 : Int))) ++ order .colMajor 0 (m + 1) 1 n) = ps
      at he hran ⊢
    cases e' : results (fun p : Int × Int => g p.1 p.2) ps x1 with
    | bad => rw [e'] at he; cases he
    | ok y x2 => rw [e'] at he; cases he
    | raise y x2 =>
      rw [e'] at he
      cases he
      obtain ⟨M', e2⟩ := fill_raise g h (m + 1) (n + 1) ps
        (List.replicate (m + 1) (List.replicate (n + 1) v)) x1 x' ex
        (fun p hp => hran p (List.mem_cons_of_mem _ hp)) (by simp) (by
          intro xs hx
          rw [List.eq_of_mem_replicate hx]
          simp) e'
      rw [e2]
      exact ⟨_, rfl, rfl, List.prefix_append _ _⟩

end Mosml.Matrix
