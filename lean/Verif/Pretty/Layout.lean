import Verif.Pretty.Final

/-!
# The layout
-/

namespace Mosml.Pretty

open Mosml.Num (Str)

/-- One call with its size. -/
def ann : Op → List Op → ROp
  | .str s, _ => .str s
  | .bgn c o, r => .bgn (dist 1 r) c o
  | .fin, _ => .fin
  | .brk n o, r => .brk (n + dist 0 r) n o

theorem annot_cons (o : Op) (r : List Op) : annot (o :: r) = ann o r :: annot r := by
  cases o <;> rfl

theorem exec_cons (lw : Nat) (x : ROp) (y : List ROp) (pg : Page) :
    exec lw (x :: y) pg = (exec lw [x] pg).bind (exec lw y) := by
  cases x with
  | str s => rfl
  | bgn z c o => rfl
  | fin =>
    simp only [exec]
    cases pg.ist <;> rfl
  | brk z n o =>
    simp only [exec]
    cases pg.ist with
    | nil => rfl
    | cons i l =>
      cases i with
      | fits => rfl
      | onePer c => rfl
      | pack c =>
        simp only
        split <;> rfl

theorem dist_mono : ∀ (r : List Op) (d d' e : Nat), d ≤ d' → Nested e r → dist d r ≤ dist d' r
  | [], _, _, _, _, _ => by simp [dist]
  | .str s :: r, d, d', e, h, hn => by
      have := dist_mono r d d' e h hn
      simp only [dist]; omega
  | .bgn _ _ :: r, d, d', e, h, hn => dist_mono r (d + 1) (d' + 1) (e + 1) (by omega) hn
  | .fin :: r, d, d', e, h, hn => dist_mono r (d - 1) (d' - 1) (e - 1) (by omega) hn.2
  | .brk n _ :: r, d, d', e, h, hn => by
      have := dist_mono r d d' e h hn.2.2
      have := dist_nonneg r d' e hn.2.2
      have := hn.2.1
      simp only [dist]
      split <;> split <;> omega

/-- What holds before the calls `r`; `c` bounds negative offsets before. -/
structure G (lw : Nat) (c : Int) (r : List Op) (pg : Page) : Prop where
  fits : ∀ i : Nat, pg.ist[i]? = some Info.fits → dist (i + 1) r ≤ pg.sp
  pre : ∀ i j : Nat, pg.ist[i]? = some Info.fits → j ≤ i → pg.ist[j]? = some Info.fits
  nest : Nested pg.ist.length r
  q : Qb lw c pg

/-- Columns are as counted. -/
def C (lw : Nat) (pg : Page) : Prop := pg.sp = lw - col pg.out

theorem takeWhile_all (y x : List Nat) (h : 10 ∉ y) :
    (y ++ x).takeWhile (· != 10) = y ++ x.takeWhile (· != 10) := by
  induction y with
  | nil => rfl
  | cons a y ih =>
    simp at h
    have ha : (a != 10) = true := by simp; exact fun e => h.1 e.symm
    rw [List.cons_append, List.takeWhile_cons, ha, if_pos rfl, ih h.2]; rfl

theorem col_append (x y : Str) (h : 10 ∉ y) : col (x ++ y) = col x + y.length := by
  rw [col, List.reverse_append, takeWhile_all _ _ (by simpa using h), List.length_append, col]
  simp; omega

theorem col_line (x y : Str) (h : 10 ∉ y) : col (x ++ 10 :: y) = y.length := by
  have e : x ++ 10 :: y = (x ++ [10]) ++ y := by simp
  rw [e, col_append _ _ h]
  have : col (x ++ [10]) = 0 := by
    rw [col, List.reverse_append]; simp
  omega

theorem blanks_no (n : Int) : 10 ∉ blanks n := by
  simp [blanks]

theorem blanks_length {n : Int} (h : 0 ≤ n) : ((blanks n).length : Int) = n := by
  simp [blanks]; omega

def PlainOp : Op → Prop
  | .str s => 10 ∉ s
  | .bgn _ o => 0 ≤ o
  | .brk _ o => 0 ≤ o
  | .fin => True

theorem plain_mem {ops : List Op} (h : Plain ops) : ∀ o ∈ ops, PlainOp o := by
  intro o ho
  cases o with
  | str s => exact h.1 s ho
  | bgn c o => exact h.2.1 c o ho
  | brk n o => exact h.2.2 n o ho
  | fin => trivial

theorem plain_negs {ops : List Op} (h : ∀ o ∈ ops, PlainOp o) : negs ops = 0 := by
  induction ops with
  | nil => rfl
  | cons o ops ih =>
    have i := ih (fun o ho => h o (List.mem_cons_of_mem _ ho))
    have := h o (by simp)
    cases o <;> simp only [negs, PlainOp] at * <;> omega

/-- The printed form of one call. -/
inductive R1 : Op → Str → Prop
  | str (s : Str) : R1 (.str s) s
  | bgn (c : Bool) (o : Int) : R1 (.bgn c o) []
  | fin : R1 .fin []
  | blank (n o : Int) : R1 (.brk n o) (blanks n)
  | line (n o k : Int) : R1 (.brk n o) (10 :: blanks k)

/-- One break. -/
theorem G_brk {lw : Nat} {c : Int} {n o : Int} {r : List Op} {pg : Page}
    (h : G lw c (.brk n o :: r) pg) :
    ∃ i l pg', pg.ist = i :: l ∧ exec lw [ann (.brk n o) r] pg = some pg' ∧ pg'.ist = pg.ist ∧
      G lw (c + negs [.brk n o]) r pg' ∧
      ((pg'.out = pg.out ++ blanks n ∧ pg'.sp = pg.sp - n ∧ dist 0 r ≤ pg'.sp ∧
        (i = .fits ∨ ∃ k, i = .pack k ∧ n + dist 0 r ≤ pg.sp)) ∨
       (∃ k, pg'.out = pg.out ++ 10 :: blanks (k + o) ∧ pg'.sp = lw - (k + o) ∧ -c ≤ k ∧
        (i = .onePer k ∨ (i = .pack k ∧ pg.sp < n + dist 0 r)))) := by
  obtain ⟨h1, h2, h3, h4⟩ := h
  have hn := h3.2.1
  have hnn : Nested pg.ist.length r := h3.2.2
  have hneg : negs [Op.brk n o] = max 0 (-o) := by simp [negs]
  cases hi : pg.ist with
  | nil => rw [hi] at h3; exact absurd h3.1 (by simp)
  | cons i l =>
    -- blanks
    have bl : (∀ j : Nat, pg.ist[j]? = some Info.fits → dist (j + 1) r ≤ pg.sp - n) →
        G lw (c + negs [.brk n o]) r { pg with out := pg.out ++ blanks n, sp := pg.sp - n } := by
      intro hf
      refine ⟨hf, h2, hnn, ?_, ?_⟩
      · have := h4.1
        rw [hneg]; simp only; omega
      · intro i hi cur hc
        have := h4.2 i hi cur hc
        rw [hneg]; omega
    have hall : ∀ j : Nat, pg.ist[j]? = some Info.fits → dist (j + 1) r ≤ pg.sp - n := by
      intro j hj
      have := h1 j hj
      rw [dist, if_neg (by omega)] at this
      omega
    -- a new line
    have nl : ∀ k, i ≠ .fits → -c ≤ k →
        G lw (c + negs [.brk n o]) r { pg with out := pg.out ++ 10 :: blanks (k + o), sp := lw - (k + o) } := by
      intro k hne hk
      refine ⟨?_, h2, hnn, ?_, ?_⟩
      · intro j hj
        have := h2 j 0 hj (by omega)
        rw [hi] at this
        simp at this
        exact absurd this hne
      · rw [hneg]; simp only; omega
      · intro i hi cur hc
        have := h4.2 i hi cur hc
        rw [hneg]; omega
    have hmem : i ∈ pg.ist := by rw [hi]; simp
    cases i with
    | fits =>
      refine ⟨.fits, l, { pg with out := pg.out ++ blanks n, sp := pg.sp - n }, rfl, ?_, hi, bl hall,
        Or.inl ⟨rfl, rfl, ?_, Or.inl rfl⟩⟩
      · simp only [ann, exec, hi]
      · have := hall 0 (by rw [hi]; rfl)
        rw [Nat.zero_add] at this
        have := dist_mono r 0 1 _ (by omega) hnn
        simp only; omega
    | onePer k =>
      have hk := h4.2 _ hmem k (Or.inr rfl)
      refine ⟨.onePer k, l, { pg with out := pg.out ++ 10 :: blanks (k + o), sp := lw - (k + o) }, rfl, ?_, hi,
        nl k (by simp) hk, Or.inr ⟨k, rfl, rfl, hk, Or.inl rfl⟩⟩
      simp only [ann, exec, hi]
    | pack k =>
      have hk := h4.2 _ hmem k (Or.inl rfl)
      by_cases hz : n + dist 0 r ≤ pg.sp
      · refine ⟨.pack k, l, { pg with out := pg.out ++ blanks n, sp := pg.sp - n }, rfl, ?_, hi, bl hall,
          Or.inl ⟨rfl, rfl, ?_, Or.inr ⟨k, rfl, hz⟩⟩⟩
        · simp only [ann, exec, hi]
          rw [if_pos hz]
        · simp only; omega
      · refine ⟨.pack k, l, { pg with out := pg.out ++ 10 :: blanks (k + o), sp := lw - (k + o) }, rfl, ?_, hi,
          nl k (by simp) hk, Or.inr ⟨k, rfl, rfl, hk, Or.inr ⟨rfl, by omega⟩⟩⟩
        simp only [ann, exec, hi]
        rw [if_neg hz]

/-- How a block is printed. -/
def info (lw : Nat) (cons : Bool) (o : Int) (r : List Op) (pg : Page) : Info :=
  if dist 1 r ≤ pg.sp then .fits
  else if cons then .onePer (lw - pg.sp + o) else .pack (lw - pg.sp + o)

theorem G_bgn {lw : Nat} {c : Int} {b : Bool} {o : Int} {r : List Op} {pg : Page}
    (h : G lw c (.bgn b o :: r) pg) :
    exec lw [ann (.bgn b o) r] pg = some { pg with ist := info lw b o r pg :: pg.ist } ∧
      G lw (c + negs [.bgn b o]) r { pg with ist := info lw b o r pg :: pg.ist } := by
  obtain ⟨h1, h2, h3, h4⟩ := h
  have hneg : negs [Op.bgn b o] = max 0 (-o) := by simp [negs]
  refine ⟨rfl, ⟨?_, ?_, h3, ?_, ?_⟩⟩
  · intro i hi
    cases i with
    | zero =>
      simp only [List.getElem?_cons_zero, info, Option.some.injEq] at hi
      by_contra hc
      rw [if_neg hc] at hi
      split at hi <;> simp at hi
    | succ i => exact h1 i (by simpa using hi)
  · intro i j hi hj
    cases j with
    | zero =>
      cases i with
      | zero => exact hi
      | succ i =>
        have := h1 i (by simpa using hi)
        rw [dist] at this
        have hm := dist_mono r 1 (i + 1 + 1) _ (by omega) h3
        simp only [List.getElem?_cons_zero, info]
        rw [if_pos (by omega)]
    | succ j =>
      cases i with
      | zero => omega
      | succ i => simpa using h2 i j (by simpa using hi) (by omega)
  · have := h4.1
    rw [hneg]; simp only; omega
  · intro i hi cur hc
    have h41 := h4.1
    rw [List.mem_cons] at hi
    rw [hneg]
    rcases hi with rfl | hi
    · rw [info] at hc
      split at hc
      · simp at hc
      · split at hc
        · simp at hc; omega
        · simp at hc; omega
    · have := h4.2 i hi cur hc
      omega

theorem G_str {lw : Nat} {c : Int} {s : Str} {r : List Op} {pg : Page}
    (h : G lw c (.str s :: r) pg) :
    exec lw [ann (.str s) r] pg = some { pg with out := pg.out ++ s, sp := pg.sp - s.length } ∧
      G lw c r { pg with out := pg.out ++ s, sp := pg.sp - s.length } := by
  obtain ⟨h1, h2, h3, h4⟩ := h
  refine ⟨rfl, ⟨?_, h2, h3, ?_, h4.2⟩⟩
  · intro i hi
    have := h1 i hi
    rw [dist] at this
    simp only; omega
  · have := h4.1
    simp only; omega

theorem G_fin {lw : Nat} {c : Int} {r : List Op} {pg : Page} (h : G lw c (.fin :: r) pg) :
    ∃ i l, pg.ist = i :: l ∧ exec lw [ann .fin r] pg = some { pg with ist := l } ∧
      G lw c r { pg with ist := l } := by
  obtain ⟨h1, h2, h3, h4⟩ := h
  cases hi : pg.ist with
  | nil => rw [hi] at h3; exact absurd h3.1 (by simp)
  | cons i l =>
    refine ⟨i, l, rfl, by simp only [ann, exec, hi], ⟨?_, ?_, ?_, h4.1, ?_⟩⟩
    · intro j hj
      have := h1 (j + 1) (by rw [hi]; exact hj)
      rw [dist] at this
      exact this
    · intro j k hj hk
      have := h2 (j + 1) (k + 1) (by rw [hi]; exact hj) (by omega)
      rw [hi] at this
      exact this
    · have := h3.2
      rw [hi] at this
      exact this
    · intro j hj
      exact h4.2 j (by rw [hi]; exact List.mem_cons_of_mem _ hj)

/-- One call. -/
theorem G_step {lw : Nat} {c : Int} {o : Op} {r : List Op} {pg : Page} (h : G lw c (o :: r) pg) :
    ∃ pg' x, exec lw [ann o r] pg = some pg' ∧ G lw (c + negs [o]) r pg' ∧ R1 o x ∧
      pg'.out = pg.out ++ x ∧ (c = 0 → PlainOp o → C lw pg → C lw pg') := by
  cases o with
  | str s =>
    obtain ⟨k1, k2⟩ := G_str h
    refine ⟨_, s, k1, by simpa [negs] using k2, .str s, rfl, ?_⟩
    intro _ hp hc
    unfold C at *
    simp only
    rw [col_append _ _ hp, hc]; push_cast; omega
  | bgn b o =>
    obtain ⟨k1, k2⟩ := G_bgn h
    exact ⟨_, [], k1, k2, .bgn b o, by simp, fun _ _ hc => hc⟩
  | fin =>
    obtain ⟨i, l, _, k1, k2⟩ := G_fin h
    exact ⟨_, [], k1, by simpa [negs] using k2, .fin, by simp, fun _ _ hc => hc⟩
  | brk n o =>
    obtain ⟨i, l, pg', k0, k1, _, k2, k3⟩ := G_brk h
    have hn := h.nest.2.1
    rcases k3 with ⟨k3, k4, _⟩ | ⟨k, k3, k4, k5, _⟩
    · refine ⟨pg', _, k1, k2, .blank n o, k3, ?_⟩
      intro _ _ hc
      unfold C at *
      have := blanks_length hn
      rw [k3, k4, col_append _ _ (blanks_no n), hc]; push_cast; omega
    · refine ⟨pg', _, k1, k2, .line n o (k + o), k3, ?_⟩
      intro h0 hp _
      unfold C at *
      have hp' : 0 ≤ o := hp
      have := blanks_length (n := k + o) (by omega)
      rw [k3, k4, col_line _ _ (blanks_no _)]; omega

/-- Several calls. -/
theorem walk {lw : Nat} : ∀ (h r : List Op) (c : Int) (pg : Page), G lw c (h ++ r) pg →
    ∃ pg' x, exec lw (annot (h ++ r)) pg = exec lw (annot r) pg' ∧ G lw (c + negs h) r pg' ∧
      Renders h x ∧ pg'.out = pg.out ++ x ∧
      (c = 0 → (∀ o ∈ h, PlainOp o) → C lw pg → C lw pg')
  | [], r, c, pg, h => ⟨pg, [], rfl, by simpa [negs] using h, .nil, by simp, fun _ _ h => h⟩
  | o :: h, r, c, pg, hg => by
      rw [List.cons_append] at hg
      obtain ⟨pg1, x1, k1, k2, k3, k4, k5⟩ := G_step hg
      obtain ⟨pg2, x2, m1, m2, m3, m4, m5⟩ := walk h r _ pg1 k2
      have hneg : negs (o :: h) = negs [o] + negs h := by
        have := negs_append [o] h; simpa using this
      refine ⟨pg2, x1 ++ x2, ?_, by rw [hneg, ← add_assoc]; exact m2, ?_, ?_, ?_⟩
      · rw [List.cons_append, annot_cons, exec_cons, k1]; exact m1
      · cases k3 with
        | str s => exact .str _ m3
        | bgn b o => exact .bgn b o m3
        | fin => exact .fin m3
        | blank n o => exact .blank n o m3
        | line n o k => exact .line n o k m3
      · rw [m4, k4, List.append_assoc]
      · intro h0 hp hc
        have hz : negs [o] = 0 := plain_negs (fun u hu => hp u (by simp at hu; simp [hu]))
        exact m5 (by omega) (fun u hu => hp u (List.mem_cons_of_mem _ hu))
          (k5 h0 (hp o (by simp)) hc)

/-- Within a block, the state of the blocks around does not change. -/
theorem inside_ist {lw : Nat} : ∀ (h r : List Op) (c : Int) (pg : Page) (L S : List Info),
    G lw c (h ++ r) pg → Inside L.length h → pg.ist = L ++ S →
    ∃ pg' x, exec lw (annot (h ++ r)) pg = exec lw (annot r) pg' ∧ G lw (c + negs h) r pg' ∧
      Renders h x ∧ pg'.out = pg.out ++ x ∧
      (c = 0 → (∀ o ∈ h, PlainOp o) → C lw pg → C lw pg') ∧ pg'.ist = S
  | [], r, c, pg, L, S, hg, hin, hi => by
      have : L = [] := List.length_eq_zero_iff.1 hin
      subst this
      exact ⟨pg, [], rfl, by simpa [negs] using hg, .nil, by simp, fun _ _ h => h, hi⟩
  | o :: h, r, c, pg, L, S, hg, hin, hi => by
      rw [List.cons_append] at hg
      have fin : ∀ (pg1 : Page) (x1 : Str) (L' : List Info), exec lw [ann o (h ++ r)] pg = some pg1 →
          G lw (c + negs [o]) (h ++ r) pg1 → R1 o x1 → pg1.out = pg.out ++ x1 →
          (c = 0 → PlainOp o → C lw pg → C lw pg1) → Inside L'.length h → pg1.ist = L' ++ S →
          ∃ pg' x, exec lw (annot (o :: h ++ r)) pg = exec lw (annot r) pg' ∧
            G lw (c + negs (o :: h)) r pg' ∧ Renders (o :: h) x ∧ pg'.out = pg.out ++ x ∧
            (c = 0 → (∀ u ∈ o :: h, PlainOp u) → C lw pg → C lw pg') ∧ pg'.ist = S := by
        intro pg1 x1 L' k1 k2 k3 k4 k5 k6 k7
        obtain ⟨pg2, x2, m1, m2, m3, m4, m5, m6⟩ := inside_ist h r _ pg1 L' S k2 k6 k7
        have hneg : negs (o :: h) = negs [o] + negs h := by
          have := negs_append [o] h; simpa using this
        refine ⟨pg2, x1 ++ x2, ?_, by rw [hneg, ← add_assoc]; exact m2, ?_, ?_, ?_, m6⟩
        · rw [List.cons_append, annot_cons, exec_cons, k1]; exact m1
        · cases k3 with
          | str s => exact .str _ m3
          | bgn b o => exact .bgn b o m3
          | fin => exact .fin m3
          | blank n o => exact .blank n o m3
          | line n o k => exact .line n o k m3
        · rw [m4, k4, List.append_assoc]
        · intro h0 hp hc
          have hz : negs [o] = 0 := plain_negs (fun u hu => hp u (by simp at hu; simp [hu]))
          exact m5 (by omega) (fun u hu => hp u (List.mem_cons_of_mem _ hu))
            (k5 h0 (hp o (by simp)) hc)
      obtain ⟨pg1, x1, k1, k2, k3, k4, k5⟩ := G_step hg
      cases o with
      | str s =>
        have e := (G_str hg).1
        rw [e] at k1
        simp at k1
        refine fin pg1 x1 L (by rw [e]; simp [k1]) k2 k3 k4 k5 hin (by rw [← k1]; exact hi)
      | bgn b w =>
        have e := (G_bgn hg).1
        rw [e] at k1
        simp at k1
        refine fin pg1 x1 (info lw b w (h ++ r) pg :: L) (by rw [e]; simp [k1]) k2 k3 k4 k5 hin
          (by rw [← k1]; simp [hi])
      | fin =>
        obtain ⟨i, l, e0, e, _⟩ := G_fin hg
        rw [e] at k1
        simp at k1
        cases L with
        | nil => exact absurd hin.1 (by simp)
        | cons i' L =>
          refine fin pg1 x1 L (by rw [e]; simp [k1]) k2 k3 k4 k5 hin.2 ?_
          rw [hi] at e0
          simp at e0
          rw [← k1]; simp [e0.2]
      | brk n w =>
        obtain ⟨i, l, pg', e0, e, e1, _⟩ := G_brk hg
        rw [e] at k1
        simp at k1
        refine fin pg1 x1 L (by rw [e]; simp [k1]) k2 k3 k4 k5 hin (by rw [← k1, e1]; exact hi)

theorem G_init {lw : Nat} {ops : List Op} {o0 : Str} (h : Nested 0 ops) : G lw 0 ops ⟨o0, lw, []⟩ :=
  ⟨by simp, by simp, h, by simp, by simp⟩

theorem text_le : ∀ (m t : List Op) (d e : Nat), (∀ n o, .brk n o ∉ m) → Nested e (m ++ t) →
    (text m).length ≤ dist d (m ++ t)
  | [], t, d, e, _, hn => by simpa [text] using dist_nonneg t d e hn
  | .str s :: m, t, d, e, hm, hn => by
      have := text_le m t d e (fun n o h => hm n o (List.mem_cons_of_mem _ h)) hn
      simp only [text, List.cons_append, dist, List.length_append]; push_cast; omega
  | .bgn _ _ :: m, t, d, e, hm, hn =>
      text_le m t (d + 1) (e + 1) (fun n o h => hm n o (List.mem_cons_of_mem _ h)) hn
  | .fin :: m, t, d, e, hm, hn =>
      text_le m t (d - 1) (e - 1) (fun n o h => hm n o (List.mem_cons_of_mem _ h)) hn.2
  | .brk n o :: m, _, _, _, hm, _ => absurd (by simp) (hm n o)

theorem renders_text {m : List Op} {x : Str} (h : Renders m x) (hm : ∀ n o, .brk n o ∉ m) :
    x = text m := by
  induction h with
  | nil => rfl
  | str s _ ih => rw [text, ih (fun n o h => hm n o (List.mem_cons_of_mem _ h))]
  | bgn c o _ ih =>
    simp only [text]
    exact ih (fun n o h => hm n o (List.mem_cons_of_mem _ h))
  | fin _ ih =>
    simp only [text]
    exact ih (fun n o h => hm n o (List.mem_cons_of_mem _ h))
  | blank n o _ _ => exact absurd (by simp) (hm n o)
  | line n o _ _ _ => exact absurd (by simp) (hm n o)

end Mosml.Pretty
