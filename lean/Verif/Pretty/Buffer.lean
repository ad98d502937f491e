import Verif.Pretty.Tokens

/-!
# The circular buffer holds the pending tokens
-/

namespace Mosml.Pretty

open Mosml.Num (Str)

/-- The buffer holds `p` from index `a` on (modulo `N`), and elsewhere no BB or E. -/
structure Buf (N l r : Nat) (buf : Nat → Tok) (a : Nat) (p : List Tok) : Prop where
  pos : 0 < N
  left : l = a % N
  right : p ≠ [] → r = (a + p.length - 1) % N
  len : p.length ≤ N
  get : ∀ i t, p[i]? = some t → buf ((a + i) % N) = t
  clean : ∀ j, (∀ i, i < p.length → j ≠ (a + i) % N) → isBB (buf j) = false ∧ isE (buf j) = false

theorem mod_inj {N a i j : Nat} (hi : i < N) (hj : j < N) (h : (a + i) % N = (a + j) % N) :
    i = j := by
  have key : ∀ i j, i ≤ j → j < N → (a + i) % N = (a + j) % N → i = j := by
    intro i j hij hj h
    have h1 := Nat.div_add_mod (a + i) N
    have h2 := Nat.div_add_mod (a + j) N
    rw [← h] at h2
    have h3 : (a + i) / N ≤ (a + j) / N := Nat.div_le_div_right (by omega)
    rcases Nat.lt_or_ge ((a + i) / N) ((a + j) / N) with h4 | h4
    · have : N * ((a + i) / N) + N ≤ N * ((a + j) / N) := by
        rw [← Nat.mul_succ]; exact Nat.mul_le_mul_left _ h4
      omega
    · have : (a + i) / N = (a + j) / N := by omega
      rw [this] at h1
      omega
  rcases Nat.le_total i j with h1 | h1
  · exact key i j h1 hj h
  · exact (key j i h1 hi h.symm).symm

variable {N l r a : Nat} {buf : Nat → Tok} {p : List Tok}

theorem Buf.head {t : Tok} {y : List Tok} (h : Buf N l r buf a (t :: y)) : buf l = t := by
  rw [h.left]
  exact h.get 0 t rfl

theorem Buf.last (h : Buf N l r buf a p) {t : Tok} (ht : p.getLast? = some t) : buf r = t := by
  have hne : p ≠ [] := by intro h0; rw [h0] at ht; simp at ht
  rw [h.right hne]
  have hl : 0 < p.length := List.length_pos_iff.2 hne
  rw [show a + p.length - 1 = a + (p.length - 1) by omega]
  exact h.get _ t (by rw [← ht, List.getLast?_eq_getElem?])

/-- A token is added. -/
theorem Buf.append (h : Buf N l r buf a p) (hne : p ≠ []) (hlt : p.length < N) (t : Tok) :
    Buf N l ((r + 1) % N) (upd buf ((r + 1) % N) t) a (p ++ [t]) := by
  have hl : 0 < p.length := List.length_pos_iff.2 hne
  have hr : (r + 1) % N = (a + p.length) % N := by
    rw [h.right hne, Nat.mod_add_mod]
    congr 1; omega
  refine ⟨h.pos, h.left, fun _ => ?_, by simp; omega, ?_, ?_⟩
  · rw [hr]; congr 1; simp
  · intro i u hu
    rw [List.getElem?_append] at hu
    simp only [upd, hr]
    split at hu
    · rename_i hi
      rw [if_neg]
      · exact h.get i u hu
      · intro hh
        have := mod_inj (by omega) hlt hh
        omega
    · rename_i hi
      have : i = p.length := by
        by_contra hc
        rw [List.getElem?_eq_none (by simp; omega)] at hu
        simp at hu
      subst this
      simp at hu
      rw [if_pos rfl, hu]
  · intro j hj
    have h1 := hj p.length (by simp)
    simp only [upd, hr]
    rw [if_neg h1]
    exact h.clean j (fun i hi => hj i (by simp; omega))

/-- The first token is added. -/
theorem Buf.first (h : Buf N l r buf a []) (t : Tok) : Buf N 0 0 (upd buf 0 t) 0 [t] := by
  have hp := h.pos
  refine ⟨hp, by simp, fun _ => by simp, by simp; omega, ?_, ?_⟩
  · intro i u hu
    cases i with
    | zero => simp at hu; simp [upd, hu]
    | succ i => simp at hu
  · intro j hj
    have h0 := hj 0 (by simp)
    simp at h0
    simp only [upd, if_neg h0]
    exact h.clean j (by simp)

/-- A token is changed. -/
theorem Buf.modify {x y : List Tok} {t : Tok} (h : Buf N l r buf a (x ++ t :: y)) (t' : Tok) :
    Buf N l r (upd buf ((a + x.length) % N) t') a (x ++ t' :: y) := by
  have hlen : (x ++ t' :: y).length = (x ++ t :: y).length := by simp
  refine ⟨h.pos, h.left, fun _ => ?_, by rw [hlen]; exact h.len, ?_, ?_⟩
  · rw [hlen]; exact h.right (by simp)
  · intro i u hu
    have hi : i < (x ++ t :: y).length := by
      rw [← hlen]
      by_contra hc
      rw [List.getElem?_eq_none (by omega)] at hu
      simp at hu
    have hl := h.len
    simp only [upd]
    by_cases he : i = x.length
    · subst he
      rw [if_pos rfl]
      simpa using hu
    · rw [if_neg]
      · apply h.get i u
        rw [← hu]
        by_cases h1 : i < x.length
        · rw [List.getElem?_append_left h1, List.getElem?_append_left h1]
        · rw [List.getElem?_append_right (by omega), List.getElem?_append_right (by omega)]
          obtain ⟨m, hm⟩ : ∃ m, i - x.length = m + 1 := ⟨i - x.length - 1, by omega⟩
          rw [hm]; rfl
      · intro hh
        simp at hi hl
        exact he (mod_inj (by omega) (by omega) hh)
  · intro j hj
    have h1 := hj x.length (by simp)
    simp only [upd, if_neg h1]
    exact h.clean j (fun i hi => hj i (by rw [hlen]; exact hi))

/-- The first token is removed, and its place cleaned. -/
theorem Buf.drop {t u : Tok} {y : List Tok} (h : Buf N l r buf a (t :: y))
    (hu : isBB u = false ∧ isE u = false) (hy : y ≠ []) :
    Buf N ((l + 1) % N) r (upd buf l u) (a + 1) y := by
  have hl := h.len
  simp at hl
  refine ⟨h.pos, ?_, fun _ => ?_, by omega, ?_, ?_⟩
  · rw [h.left, Nat.mod_add_mod]
  · rw [h.right (by simp)]; congr 1; simp only [List.length_cons]; omega
  · intro i v hv
    have hi : i < y.length := by
      by_contra hc
      rw [List.getElem?_eq_none (by omega)] at hv
      simp at hv
    have := h.get (i + 1) v hv
    simp only [upd]
    rw [if_neg]
    · rw [← this]; congr 2; omega
    · rw [h.left]
      intro hh
      rw [show a + 1 + i = a + (i + 1) by omega] at hh
      have := mod_inj (N := N) (a := a) (i := i + 1) (j := 0) (by omega) h.pos (by rw [hh]; rfl)
      omega
  · intro j hj
    simp only [upd]
    split
    · exact hu
    · rename_i hne
      apply h.clean
      intro i hi
      cases i with
      | zero => rw [h.left] at hne; exact hne
      | succ i =>
        have := hj i (by simp at hi; omega)
        rw [show a + (i + 1) = a + 1 + i by omega]; exact this

theorem upd_self (buf : Nat → Tok) (i : Nat) : upd buf i (buf i) = buf := by
  funext j
  simp only [upd]
  split
  · rename_i h; rw [h]
  · rfl

theorem Buf.drop' {t : Tok} {y : List Tok} (h : Buf N l r buf a (t :: y))
    (hu : isBB t = false ∧ isE t = false) (hy : y ≠ []) : Buf N ((l + 1) % N) r buf (a + 1) y := by
  have := h.drop hu hy
  have e := h.head
  rw [← e, upd_self] at this
  exact this

/-- The last token is removed. -/
theorem Buf.done {t : Tok} (h : Buf N l r buf a [t]) (hu : isBB t = false ∧ isE t = false) :
    Buf N l r buf a [] := by
  refine ⟨h.pos, h.left, fun h => absurd rfl h, by simp, by simp, ?_⟩
  intro j _
  by_cases hj : j = a % N
  · have := h.head
    rw [h.left] at this
    rw [hj, this]; exact hu
  · apply h.clean
    intro i hi
    simp at hi
    subst hi
    exact hj

theorem Buf.ne {t : Tok} {y : List Tok} (h : Buf N l r buf a (t :: y)) (hy : y ≠ []) : l ≠ r := by
  have hl := h.len
  simp at hl
  have hy' := List.length_pos_iff.2 hy
  rw [h.left, h.right (by simp)]
  intro hh
  have e : a + (t :: y).length - 1 = a + y.length := by simp
  rw [e] at hh
  have := mod_inj (i := 0) (j := y.length) h.pos (by omega) hh
  omega

/-- Where the tokens are whose size is not known, the first one first. -/
def stk (N : Nat) : Nat → List Tok → List Nat
  | _, [] => []
  | a, t :: y => (if unres t then [a % N] else []) ++ stk N (a + 1) y

theorem stk_append (N : Nat) (x y : List Tok) (a : Nat) :
    stk N a (x ++ y) = stk N a x ++ stk N (a + x.length) y := by
  induction x generalizing a with
  | nil => simp [stk]
  | cons t x ih =>
    rw [List.cons_append, stk, stk, ih, List.append_assoc]
    congr 3
    simp; omega

theorem stk_resolved (N : Nat) {y : List Tok} (h : ∀ t ∈ y, unres t = false) (a : Nat) :
    stk N a y = [] := by
  induction y generalizing a with
  | nil => rfl
  | cons t y ih =>
    rw [stk, h t (by simp), ih (fun t ht => h t (List.mem_cons_of_mem _ ht))]
    rfl

theorem stk_length (N : Nat) (y : List Tok) (a : Nat) : (stk N a y).length ≤ y.length := by
  induction y generalizing a with
  | nil => simp [stk]
  | cons t y ih =>
    have := ih (a + 1)
    rw [stk, List.length_append, List.length_cons]
    split <;> simp <;> omega

theorem stk_ne {y : List Tok} {N a : Nat} (h : stk N a y ≠ []) : ∃ t ∈ y, unres t = true := by
  by_contra hc
  refine h (stk_resolved N (fun t ht => ?_) a)
  by_contra h2
  exact hc ⟨t, ht, by simpa using h2⟩

def wsum (p : List Tok) : Nat := (p.map weight).sum

theorem weight_pos (t : Tok) : 0 < weight t := by cases t <;> simp [weight]

/-- There is fuel enough. -/
theorem Buf.fuel (h : Buf N l r buf a p) :
    wsum p ≤ ((List.range N).map (fun i => weight (buf ((l + i) % N)))).sum := by
  have hl := h.len
  obtain ⟨m, rfl⟩ : ∃ m, N = p.length + m := ⟨N - p.length, by omega⟩
  have e : wsum p = ((List.range p.length).map
      (fun i => weight (buf ((l + i) % (p.length + m))))).sum := by
    rw [wsum]
    congr 1
    apply List.ext_getElem
    · simp
    · intro i h1 h2
      simp only [List.getElem_map, List.getElem_range]
      have hi : i < p.length := by simpa using h1
      have := h.get i p[i] (List.getElem?_eq_getElem hi)
      rw [h.left, Nat.mod_add_mod, this]
  rw [e]
  generalize p.length + m = N' at *
  have hk : ∀ k, ((List.range p.length).map (fun i => weight (buf ((l + i) % N')))).sum ≤
      ((List.range (p.length + k)).map (fun i => weight (buf ((l + i) % N')))).sum := by
    intro k
    induction k with
    | zero => exact Nat.le_refl _
    | succ k ih =>
      rw [← Nat.add_assoc, List.range_succ, List.map_append, List.sum_append]
      omega
  obtain ⟨k, hk'⟩ : ∃ k, N' = p.length + k := ⟨N' - p.length, by omega⟩
  have := hk k
  rw [← hk'] at this
  exact this

/-! ## check -/

theorem upd_upd (buf : Nat → Tok) (i : Nat) (t u : Tok) : upd (upd buf i t) i u = upd buf i u := by
  funext j
  simp only [upd]
  split <;> rfl

theorem check_bb : ∀ (U P : List Blk) (k : Nat) (s : St) (fuel i : Nat) (rest : List Nat),
    s.buf i = .BB P U → s.dst = (if U = [] then [] else [i]) ++ rest → U.length + 1 ≤ fuel →
    ∃ f, fuel ≤ f + U.length ∧
      ((bbRes s.rsum k P U).2.1 = [] → check fuel k s = check f (bbRes s.rsum k P U).2.2
        { s with buf := upd s.buf i (.BB (bbRes s.rsum k P U).1 (bbRes s.rsum k P U).2.1),
                 dst := rest }) ∧
      ((bbRes s.rsum k P U).2.1 ≠ [] → check fuel k s = .ok
        { s with buf := upd s.buf i (.BB (bbRes s.rsum k P U).1 (bbRes s.rsum k P U).2.1),
                 dst := i :: rest })
  | [], P, k, s, fuel, i, rest, hb, hd, hf => by
      refine ⟨fuel, by simp, ?_, by simp [bbRes]⟩
      intro _
      simp only [bbRes]
      have h1 : upd s.buf i (.BB P []) = s.buf := by rw [← hb]; exact upd_self _ _
      rw [h1]
      have h2 : rest = s.dst := by rw [hd]; rfl
      rw [h2]
  | b :: U, P, 0, s, fuel, i, rest, hb, hd, hf => by
      refine ⟨fuel, by simp, by simp [bbRes], ?_⟩
      intro _
      obtain ⟨f, rfl⟩ : ∃ f, fuel = f + 1 := ⟨fuel - 1, by omega⟩
      have hd' : s.dst = i :: rest := by rw [hd]; rfl
      simp only [bbRes]
      simp only [check, hd', hb]
      rw [if_neg (by omega)]
      have h1 : upd s.buf i (.BB P (b :: U)) = s.buf := by rw [← hb]; exact upd_self _ _
      rw [h1, ← hd']
  | b :: U, P, k + 1, s, fuel, i, rest, hb, hd, hf => by
      obtain ⟨f, rfl⟩ : ∃ f, fuel = f + 1 := ⟨fuel - 1, by omega⟩
      have hd' : s.dst = i :: rest := by rw [hd]; rfl
      simp only [List.length_cons] at hf
      obtain ⟨f', h1, h2, h3⟩ := check_bb U ({ b with size := s.rsum + b.size } :: P) k
        { s with buf := upd s.buf i (.BB ({ b with size := s.rsum + b.size } :: P) U),
                 dst := if U.length = 0 then rest else i :: rest } f i rest (by simp [upd])
        (by cases U <;> simp) (by omega)
      simp only [upd_upd] at h2 h3
      refine ⟨f', by simp; omega, ?_, ?_⟩
      · intro hq
        simp only [check, hd', hb]
        rw [if_pos (by omega), show k + 1 - 1 = k by omega]
        exact h2 hq
      · intro hq
        simp only [check, hd', hb]
        rw [if_pos (by omega), show k + 1 - 1 = k by omega]
        exact h3 hq

theorem check_sim : ∀ (rv y : List Tok) (k : Nat) (s : St) (fuel a : Nat),
    Buf s.N s.left s.right s.buf a (rv.reverse ++ y) → s.dst = (stk s.N a rv.reverse).reverse →
    GG true rv.reverse → (∀ d n o, .BR d n o ∈ rv → 0 ≤ s.rsum + d ∨ 0 ≤ d) → wsum rv + 1 ≤ fuel →
    ∃ buf', check fuel k s = .ok { s with buf := buf', dst := (stk s.N a (chkR s.rsum k rv).reverse).reverse } ∧
      Buf s.N s.left s.right buf' a ((chkR s.rsum k rv).reverse ++ y)
  | [], y, k, s, fuel, a, hb, hd, _, _, hf => by
      obtain ⟨f, rfl⟩ : ∃ f, fuel = f + 1 := ⟨fuel - 1, by omega⟩
      have hd' : s.dst = [] := hd
      refine ⟨s.buf, ?_, hb⟩
      simp only [check, hd']
      have e : ({ s with buf := s.buf, dst := (stk s.N a (chkR s.rsum k []).reverse).reverse } : St) = s := by
        have : (stk s.N a (chkR s.rsum k []).reverse).reverse = s.dst := by rw [hd']; rfl
        rw [this]
      rw [e]
  | t :: rv, y, k, s, fuel, a, hb, hd, hg, hbr, hf => by
      rw [List.reverse_cons] at hb hd hg
      rw [List.append_assoc, List.singleton_append] at hb
      rw [GG_append] at hg
      rw [stk_append, List.reverse_append] at hd
      have hwt : wsum (t :: rv) = weight t + wsum rv := by simp [wsum]
      have hlen : rv.reverse.length = rv.length := by simp
      rw [hlen] at hd
      -- a token that is known already
      have hbr' : ∀ d n o, .BR d n o ∈ rv → 0 ≤ s.rsum + d ∨ 0 ≤ d :=
        fun d n o h => hbr d n o (List.mem_cons_of_mem _ h)
      have skip : ∀ (s1 : St) (fuel k : Nat) (t : Tok), s1.rsum = s.rsum → unres t = false →
          Buf s1.N s1.left s1.right s1.buf a (rv.reverse ++ t :: y) →
          s1.dst = (stk s1.N a rv.reverse).reverse → wsum rv + 1 ≤ fuel →
          ∃ buf', check fuel k s1 = .ok { s1 with buf := buf', dst := (stk s1.N a (t :: chkR s1.rsum k rv).reverse).reverse } ∧
          Buf s1.N s1.left s1.right buf' a ((t :: chkR s1.rsum k rv).reverse ++ y) := by
        intro s1 fuel k t hrs ht hb hd hf
        obtain ⟨buf', h1, h2⟩ := check_sim rv (t :: y) k s1 fuel a hb hd hg.1 (by rw [hrs]; exact hbr') hf
        refine ⟨buf', ?_, ?_⟩
        · rw [h1, List.reverse_cons, stk_append]
          simp [stk, ht]
        · rw [List.reverse_cons, List.append_assoc, List.singleton_append]
          exact h2
      cases t with
      | S str =>
        rw [chkR]
        exact skip s fuel k _ rfl rfl hb (by simpa [stk, unres] using hd) (by omega)
      | E p u =>
        rw [chkR]
        by_cases hu : u = 0
        · rw [if_pos hu]
          exact skip s fuel k _ rfl (by simp [unres, hu]) hb (by simpa [stk, unres, hu] using hd) (by omega)
        · rw [if_neg hu]
          have hd' : s.dst = (a + rv.length) % s.N :: (stk s.N a rv.reverse).reverse := by
            rw [hd]; simp [stk, unres, hu]
          have hget := hb.get rv.length (.E p u) (by simp)
          obtain ⟨f, rfl⟩ : ∃ f, fuel = f + 1 := ⟨fuel - 1, by omega⟩
          simp only [check, hd', hget]
          have hb2 := hb.modify (.E (p + u) 0)
          rw [hlen] at hb2
          exact skip { s with buf := _, dst := _ } f _ _ rfl rfl hb2 rfl
            (by rw [hwt] at hf; simp only [weight] at hf; omega)
      | BR d n o =>
        rw [chkR]
        by_cases hu : d < 0
        · rw [if_pos hu]
          have hd' : s.dst = (a + rv.length) % s.N :: (stk s.N a rv.reverse).reverse := by
            rw [hd]; simp [stk, unres, hu]
          have hget := hb.get rv.length (.BR d n o) (by simp)
          obtain ⟨f, rfl⟩ : ∃ f, fuel = f + 1 := ⟨fuel - 1, by omega⟩
          simp only [check, hd', hget]
          have hb2 := hb.modify (.BR (s.rsum + d) n o)
          rw [hlen] at hb2
          have hnn : unres (.BR (s.rsum + d) n o) = false := by
            rcases hbr d n o (by simp) with h | h
            · simp [unres]; omega
            · omega
          by_cases hk : k > 0
          · rw [if_pos hk]
            exact skip { s with buf := _, dst := _ } f _ _ rfl hnn hb2 rfl
              (by rw [hwt] at hf; simp only [weight] at hf; omega)
          · rw [if_neg hk]
            have hk0 : k = 0 := by omega
            subst hk0
            have hz : chkR s.rsum 0 rv = rv := by
              apply chkR_zero
              exact hg.2.1 (by simp [unres, hu]) rfl
            rw [hz]
            refine ⟨upd s.buf ((a + rv.length) % s.N) (.BR (s.rsum + d) n o), ?_, ?_⟩
            · rw [List.reverse_cons, stk_append]
              simp only [stk, hnn, Bool.false_eq_true, if_false, List.append_nil]
            · rw [List.reverse_cons, List.append_assoc, List.singleton_append]
              exact hb2
        · rw [if_neg hu]
          exact skip s fuel k _ rfl (by simp [unres, hu]) hb (by simpa [stk, unres, hu] using hd) (by omega)
      | BB P U =>
        rw [chkR]
        have hget := hb.get rv.length (.BB P U) (by simp)
        have hb2 := hb.modify (.BB (bbRes s.rsum k P U).1 (bbRes s.rsum k P U).2.1)
        rw [hlen] at hb2
        have hd' : s.dst = (if U = [] then [] else [(a + rv.length) % s.N]) ++
            (stk s.N a rv.reverse).reverse := by
          rw [hd]
          cases U <;> simp [stk, unres]
        rw [hwt] at hf
        simp only [weight] at hf
        obtain ⟨f, hf1, hf2, hf3⟩ := check_bb U P k s fuel _ _ hget hd' (by omega)
        by_cases hq : (bbRes s.rsum k P U).2.1 = []
        · simp only [if_pos hq]
          rw [hf2 hq]
          exact skip { s with buf := _, dst := _ } f _ _ rfl (by simp [unres, hq]) hb2 rfl (by omega)
        · simp only [if_neg hq]
          refine ⟨upd s.buf ((a + rv.length) % s.N)
            (.BB (bbRes s.rsum k P U).1 (bbRes s.rsum k P U).2.1), ?_, ?_⟩
          · rw [hf3 hq, List.reverse_cons, stk_append]
            congr 2
            simp [stk, unres, hq]
          · rw [List.reverse_cons, List.append_assoc, List.singleton_append]
            exact hb2

end Mosml.Pretty
