import Mathlib.Data.List.Nodup
import Mathlib.Data.List.TakeDrop
import Verif.Cond.Decide

namespace Mosml.Cond

variable {α : Type}

/-! ## Sorting -/

theorem merge_perm (xs ys : List (Int × α)) : (merge xs ys).Perm (xs ++ ys) := by
  fun_induction merge xs ys with
  | case1 ys => simp
  | case2 xs h => simp
  | case3 x xr y yr h ih => exact ih.cons x
  | case4 x xr y yr h ih =>
      exact (ih.cons y).trans (List.perm_middle (a := y) (l₁ := x :: xr) (l₂ := yr)).symm

theorem initList_perm (l : List (Int × α)) : (initList l).flatten.Perm l := by
  fun_induction initList l with
  | case1 => simp
  | case2 e => simp
  | case3 x1 x2 xs ih =>
      simp only [List.flatten_cons]
      split
      · exact (ih.cons x2).cons x1
      · exact ((ih.cons x1).cons x2).trans (List.Perm.swap _ _ _)

theorem merge2_perm (xss : List (List (Int × α))) : (merge2 xss).flatten.Perm xss.flatten := by
  fun_induction merge2 xss with
  | case1 xs1 xs2 xss ih =>
      simp only [List.flatten_cons]
      have := (merge_perm xs1 xs2).append ih
      simpa using this
  | case2 => exact List.Perm.refl _

theorem mergeAll_perm (xss : List (List (Int × α))) : (mergeAll xss).Perm xss.flatten := by
  fun_induction mergeAll xss with
  | case1 => simp
  | case2 xs => simp
  | case3 x y xss ih => exact ih.trans (merge2_perm _)

theorem sort_perm (l : List (Int × α)) : (sort l).Perm l :=
  (mergeAll_perm _).trans (initList_perm l)

/-- The keys are in order. -/
abbrev Ordered (l : List (Int × α)) : Prop := l.Pairwise fun x y => x.1 ≤ y.1

theorem merge_ordered (xs ys : List (Int × α)) (hx : Ordered xs) (hy : Ordered ys) : Ordered (merge xs ys) := by
  fun_induction merge xs ys with
  | case1 ys => exact hy
  | case2 xs h => exact hx
  | case3 x xr y yr h ih =>
      obtain ⟨h1, h2⟩ := List.pairwise_cons.1 hx
      obtain ⟨h3, h4⟩ := List.pairwise_cons.1 hy
      refine List.pairwise_cons.2 ⟨fun z hz => ?_, ih h2 hy⟩
      rcases List.mem_append.1 ((merge_perm _ _).mem_iff.1 hz) with hz | hz
      · exact h1 z hz
      · rcases List.mem_cons.1 hz with rfl | hz
        · exact h
        · exact le_trans h (h3 z hz)
  | case4 x xr y yr h ih =>
      obtain ⟨h1, h2⟩ := List.pairwise_cons.1 hx
      obtain ⟨h3, h4⟩ := List.pairwise_cons.1 hy
      refine List.pairwise_cons.2 ⟨fun z hz => ?_, ih hx h4⟩
      rcases List.mem_append.1 ((merge_perm _ _).mem_iff.1 hz) with hz | hz
      · rcases List.mem_cons.1 hz with rfl | hz
        · omega
        · have := h1 z hz; omega
      · exact h3 z hz

theorem initList_ordered (l : List (Int × α)) : ∀ x ∈ initList l, Ordered x := by
  fun_induction initList l with
  | case1 => simp
  | case2 e => simp [Ordered]
  | case3 x1 x2 xs ih =>
      intro z hz
      rcases List.mem_cons.1 hz with rfl | hz
      · split
        · simpa [Ordered]
        · simp [Ordered]; omega
      · exact ih z hz

theorem merge2_ordered (xss : List (List (Int × α))) (h : ∀ x ∈ xss, Ordered x) : ∀ x ∈ merge2 xss, Ordered x := by
  fun_induction merge2 xss with
  | case1 xs1 xs2 xss ih =>
      intro z hz
      rcases List.mem_cons.1 hz with rfl | hz
      · exact merge_ordered _ _ (h _ (by simp)) (h _ (by simp))
      · exact ih (fun x hx => h x (by simp [hx])) z hz
  | case2 => exact h

theorem mergeAll_ordered (xss : List (List (Int × α))) (h : ∀ x ∈ xss, Ordered x) : Ordered (mergeAll xss) := by
  fun_induction mergeAll xss with
  | case1 => exact List.Pairwise.nil
  | case2 xs => exact h xs (by simp)
  | case3 x y xss ih => exact ih (merge2_ordered _ h)

theorem sort_ordered (l : List (Int × α)) : Ordered (sort l) :=
  mergeAll_ordered _ (initList_ordered l)

/-! ## Looking up a key -/

/-- The action of the first clause with key `n`. -/
def look (n : Int) : List (Int × α) → Option α
  | [] => none
  | (k, a) :: r => if k = n then some a else look n r

theorem look_append (n : Int) (A B : List (Int × α)) : look n (A ++ B) = (look n A).or (look n B) := by
  induction A with
  | nil => simp [look]
  | cons c A ih => obtain ⟨k, a⟩ := c; simp only [List.cons_append, look]; split <;> simp_all

theorem look_none (n : Int) (A : List (Int × α)) (h : ∀ c ∈ A, c.1 ≠ n) : look n A = none := by
  induction A with
  | nil => rfl
  | cons c A ih =>
      obtain ⟨k, a⟩ := c
      have := h (k, a) (by simp)
      simp only [look, if_neg this]
      exact ih fun c hc => h c (by simp [hc])

theorem look_mem (A : List (Int × α)) (nd : (A.map (·.1)).Nodup) (n : Int) (a : α) :
    look n A = some a ↔ (n, a) ∈ A := by
  induction A with
  | nil => simp [look]
  | cons c A ih =>
      obtain ⟨k, b⟩ := c
      simp only [List.map_cons, List.nodup_cons, List.mem_map] at nd
      simp only [look, List.mem_cons, Prod.mk.injEq]
      split
      · rename_i hk
        subst hk
        constructor
        · intro h; exact Or.inl ⟨rfl, (Option.some.inj h).symm⟩
        · rintro (⟨-, rfl⟩ | h)
          · rfl
          · exact absurd ⟨_, h, rfl⟩ nd.1
      · rename_i hk
        rw [ih nd.2]
        constructor
        · exact Or.inr
        · rintro (⟨h, -⟩ | h)
          · exact absurd h.symm hk
          · exact h

/-! ## Segments -/

/-- The strict order of distinct keys. -/
abbrev Strict (l : List (Int × α)) : Prop := l.Pairwise fun x y => x.1 < y.1

theorem strict_of (l : List (Int × α)) (h : Ordered l) (nd : (l.map (·.1)).Nodup) : Strict l := by
  induction l with
  | nil => exact List.Pairwise.nil
  | cons c l ih =>
      obtain ⟨h1, h2⟩ := List.pairwise_cons.1 h
      simp only [List.map_cons, List.nodup_cons, List.mem_map] at nd
      refine List.pairwise_cons.2 ⟨fun z hz => ?_, ih h2 nd.2⟩
      have := h1 z hz
      have : c.1 ≠ z.1 := fun e => nd.1 ⟨z, hz, e.symm⟩
      omega

theorem keyAt_lt (cs : List (Int × α)) (h : Strict cs) {i j : Nat} (hij : i < j) (hj : j < cs.length) :
    keyAt cs i < keyAt cs j := by
  have := List.pairwise_iff_getElem.1 h i j (by omega) hj hij
  simpa [keyAt, hj, show i < cs.length by omega] using this

theorem keyAt_le (cs : List (Int × α)) (h : Strict cs) {i j : Nat} (hij : i ≤ j) (hj : j < cs.length) :
    keyAt cs i ≤ keyAt cs j := by
  rcases Nat.lt_or_eq_of_le hij with h1 | rfl
  · exact le_of_lt (keyAt_lt cs h h1 hj)
  · exact le_refl _

theorem subInt_eq {x y d : Int} (h : subInt x y = some d) : d = x - y := by
  unfold subInt at h
  split at h
  · exact (Option.some.inj h).symm
  · cases h

theorem findStop_ok (cs : List (Int × α)) (start : Nat) : ∀ (s0 stop : Nat), start ≤ s0 →
    findStop cs start s0 = some stop →
    start ≤ stop ∧ stop ≤ s0 ∧ keyAt cs stop - keyAt cs start < 255 := by
  intro s0
  induction s0 with
  | zero =>
      intro stop h1 h
      simp only [findStop, Option.some.injEq] at h
      subst h
      obtain rfl : start = 0 := by omega
      simp
  | succ s0 ih =>
      intro stop h1 h
      simp only [findStop] at h
      obtain ⟨d, hd, h⟩ := Option.bind_eq_some_iff.1 h
      have hd := subInt_eq hd
      split at h
      · rename_i hc
        by_cases e : start = s0 + 1
        · subst e
          exfalso
          simp at hd
          subst hd
          rcases hc with hc | hc
          · omega
          · push_cast at hc; omega
        · obtain ⟨h2, h3, h4⟩ := ih stop (by omega) h
          exact ⟨h2, by omega, h4⟩
      · rename_i hc
        obtain rfl := Option.some.inj h
        exact ⟨h1, le_refl _, by omega⟩

/-- The keys of a segment. -/
theorem mem_slice (cs : List (Int × α)) (start stop : Nat) (c : Int × α)
    (h : c ∈ (cs.take (stop + 1)).drop start) :
    ∃ i, start ≤ i ∧ i ≤ stop ∧ i < cs.length ∧ cs[i]? = some c := by
  obtain ⟨i, hi⟩ := List.mem_iff_getElem?.1 h
  simp only [List.getElem?_drop, List.getElem?_take] at hi
  split at hi
  · refine ⟨start + i, by omega, by omega, ?_, hi⟩
    exact (List.getElem?_eq_some_iff.1 hi).1
  · cases hi

theorem keyAt_eq (cs : List (Int × α)) (i : Nat) (c : Int × α) (h : cs[i]? = some c) : keyAt cs i = c.1 := by
  simp [keyAt, h]

theorem fill_length (L : List (Int × α)) (k0 : Int) (v : List (Option α)) :
    (L.foldl (fun a c => a.set (c.1 - k0).toNat (some c.2)) v).length = v.length := by
  induction L generalizing v with
  | nil => rfl
  | cons c L ih => simp only [List.foldl_cons, ih, List.length_set]

theorem fill_get (L : List (Int × α)) (k0 : Int) (nd : (L.map (·.1)).Nodup) (hk : ∀ c ∈ L, k0 ≤ c.1)
    (v : List (Option α)) (i : Nat) (hi : i < v.length) :
    (L.foldl (fun a c => a.set (c.1 - k0).toNat (some c.2)) v)[i]? =
      some ((look (k0 + i) L).or ((v[i]?).join)) := by
  induction L generalizing v with
  | nil =>
      simp only [List.foldl_nil, look, Option.none_or]
      simp [hi]
  | cons c L ih =>
      obtain ⟨k, a⟩ := c
      have hk0 := hk (k, a) (by simp)
      simp only [List.map_cons, List.nodup_cons, List.mem_map] at nd
      simp only [List.foldl_cons]
      rw [ih nd.2 (fun c hc => hk c (by simp [hc])) _ (by simpa using hi)]
      simp only [look]
      by_cases e : k = k0 + i
      · have e2 : (k - k0).toNat = i := by omega
        rw [if_pos e, e2, look_none (k0 + i) L (fun c hc ec => nd.1 ⟨c, hc, by rw [ec, e]⟩)]
        simp [hi]
      · have e2 : (k - k0).toNat ≠ i := by
          simp only at hk0
          omega
        rw [if_neg e, List.getElem?_set_ne e2]

/-- The entry of a segment for the integer `n`. -/
def Dec.entry (d : Dec α) (n : Int) : Option α := (d.act[(n - d.low).toNat]?).join

/-- Search among segments. -/
def evalParts : List (Dec α) → Int → Option α
  | [], _ => none
  | d :: ps, n => if d.low ≤ n ∧ n ≤ d.high then d.entry n else evalParts ps n

/-- Segments one after the other. -/
def Apart (ps : List (Dec α)) : Prop :=
  (∀ d ∈ ps, d.low ≤ d.high ∧ d.act.length = (d.high - d.low + 1).toNat ∧ d.high - d.low < 255) ∧
    ps.Pairwise fun d e => d.high < e.low

theorem extract_get (cs : List (Int × α)) (hs : Strict cs) (start stop : Nat) (h1 : start ≤ stop)
    (h2 : stop < cs.length) (n : Int) (hn : keyAt cs start ≤ n) (hn' : n ≤ keyAt cs stop) :
    ((extractAct cs start stop)[(n - keyAt cs start).toNat]?).join =
      look n ((cs.take (stop + 1)).drop start) := by
  have nd : (((cs.take (stop + 1)).drop start).map (·.1)).Nodup := by
    have h3 : Strict ((cs.take (stop + 1)).drop start) :=
      List.Pairwise.sublist ((List.drop_sublist _ _).trans (List.take_sublist _ _)) hs
    exact (List.pairwise_map.2 h3).imp (fun h => ne_of_lt h)
  have hk : ∀ c ∈ (cs.take (stop + 1)).drop start, keyAt cs start ≤ c.1 := by
    intro c hc
    obtain ⟨i, a1, a2, a3, a4⟩ := mem_slice cs start stop c hc
    rw [← keyAt_eq cs i c a4]
    exact keyAt_le cs hs a1 a3
  simp only [extractAct]
  rw [fill_get _ _ nd hk _ _ (by simp only [List.length_replicate]; omega)]
  have e : keyAt cs start + ((n - keyAt cs start).toNat : Int) = n := by omega
  rw [e, List.getElem?_replicate]
  split <;> simp

theorem partition_ok (cs : List (Int × α)) (hs : Strict cs) : ∀ (fuel start : Nat) (ps : List (Dec α)),
    cs.length ≤ start + fuel → partition cs fuel start = some ps →
    Apart ps ∧ (∀ d ∈ ps, ∃ i, start ≤ i ∧ i < cs.length ∧ d.low = keyAt cs i) ∧
      ∀ n, evalParts ps n = look n (cs.drop start) := by
  intro fuel
  induction fuel with
  | zero =>
      intro start ps hl h
      simp only [partition, Option.some.injEq] at h
      subst h
      refine ⟨⟨by simp, List.Pairwise.nil⟩, by simp, fun n => ?_⟩
      rw [List.drop_eq_nil_of_le (by omega)]
      rfl
  | succ fuel ih =>
      intro start ps hl h
      simp only [partition] at h
      split at h
      · rename_i hge
        obtain rfl := Option.some.inj h
        refine ⟨⟨by simp, List.Pairwise.nil⟩, by simp, fun n => ?_⟩
        rw [List.drop_eq_nil_of_le hge]
        rfl
      · rename_i hge
        obtain ⟨stop, hst, h⟩ := Option.bind_eq_some_iff.1 h
        obtain ⟨rest, hr, rfl⟩ := Option.map_eq_some_iff.1 h
        obtain ⟨b1, b2, b3⟩ := findStop_ok cs start _ stop (by omega) hst
        obtain ⟨⟨c1, c2⟩, c3, c4⟩ := ih (stop + 1) rest (by omega) hr
        have hle := keyAt_le cs hs b1 (by omega : stop < cs.length)
        refine ⟨⟨?_, ?_⟩, ?_, ?_⟩
        · intro d hd
          rcases List.mem_cons.1 hd with rfl | hd
          · refine ⟨hle, ?_, b3⟩
            simp only [extractAct, fill_length, List.length_replicate]
          · exact c1 d hd
        · refine List.pairwise_cons.2 ⟨fun e he => ?_, c2⟩
          obtain ⟨i, i1, i2, i3⟩ := c3 e he
          rw [i3]
          exact keyAt_lt cs hs (by omega) i2
        · intro d hd
          rcases List.mem_cons.1 hd with rfl | hd
          · exact ⟨start, le_refl _, by omega, rfl⟩
          · obtain ⟨i, i1, i2, i3⟩ := c3 d hd
            exact ⟨i, by omega, i2, i3⟩
        · intro n
          have hsplit : cs.drop start = (cs.take (stop + 1)).drop start ++ cs.drop (stop + 1) := by
            conv_lhs => rw [← List.take_append_drop (stop + 1) cs]
            rw [List.drop_append_of_le_length (by simp; omega)]
          rw [hsplit, look_append]
          simp only [evalParts]
          split
          · rename_i hin
            rw [Dec.entry, extract_get cs hs start stop b1 (by omega) n hin.1 hin.2]
            rw [look_none n (cs.drop (stop + 1)), Option.or_none]
            intro c hc ec
            obtain ⟨i, hi⟩ := List.mem_iff_getElem?.1 hc
            rw [List.getElem?_drop] at hi
            have h1 := keyAt_eq cs _ c hi
            have h2 := keyAt_lt cs hs (by omega : stop < stop + 1 + i) (List.getElem?_eq_some_iff.1 hi).1
            omega
          · rename_i hout
            rw [c4 n, look_none n ((cs.take (stop + 1)).drop start), Option.none_or]
            intro c hc ec
            obtain ⟨i, a1, a2, a3, a4⟩ := mem_slice cs start stop c hc
            have h1 := keyAt_eq cs _ c a4
            have h2 := keyAt_le cs hs a1 a3
            have h3 := keyAt_le cs hs a2 (by omega)
            exact hout ⟨by omega, by omega⟩

/-! ## The tree -/

/-- What a decision tree decides. -/
def evalTree : DTree α → Int → Option α
  | .fail, _ => none
  | .interval l d r, n => if n < d.low then evalTree l n else if n > d.high then evalTree r n else d.entry n

theorem evalParts_none (ps : List (Dec α)) (n : Int) (h : ∀ d ∈ ps, n < d.low ∨ d.high < n) :
    evalParts ps n = none := by
  induction ps with
  | nil => rfl
  | cons d ps ih =>
      have := h d (by simp)
      rw [evalParts, if_neg (by omega)]
      exact ih fun e he => h e (by simp [he])

theorem evalParts_append (A B : List (Dec α)) (n : Int) (h : ∀ d ∈ A, n < d.low ∨ d.high < n) :
    evalParts (A ++ B) n = evalParts B n := by
  induction A with
  | nil => rfl
  | cons d ps ih =>
      have := h d (by simp)
      rw [List.cons_append, evalParts, if_neg (by omega)]
      exact ih fun e he => h e (by simp [he])

theorem evalParts_left (A B : List (Dec α)) (n : Int) (h : ∀ d ∈ B, n < d.low ∨ d.high < n) :
    evalParts (A ++ B) n = evalParts A n := by
  induction A with
  | nil => exact evalParts_none B n h
  | cons d ps ih => simp only [List.cons_append, evalParts, ih]

theorem slice_split (ps : List (Dec α)) (s m t : Nat) (h1 : s ≤ m) (h2 : m < t) (d : Dec α)
    (hm : ps[m]? = some d) :
    (ps.take t).drop s = (ps.take m).drop s ++ d :: (ps.take t).drop (m + 1) := by
  have hlt := (List.getElem?_eq_some_iff.1 hm).1
  have e1 : ps.take t = ps.take m ++ d :: (ps.take t).drop (m + 1) := by
    have h3 : (ps.take t)[m]? = some d := by rw [List.getElem?_take, if_pos h2, hm]
    conv_lhs => rw [← List.take_append_drop m (ps.take t)]
    rw [List.take_take, Nat.min_eq_left (by omega)]
    congr 1
    obtain ⟨h4, h5⟩ := List.getElem?_eq_some_iff.1 h3
    rw [List.drop_eq_getElem_cons h4, h5]
  conv_lhs => rw [e1]
  rw [List.drop_append_of_le_length (by simp; omega)]

theorem makeTree_ok (ps : List (Dec α)) (hp : Apart ps) : ∀ (fuel s t : Nat), t ≤ ps.length → t ≤ s + fuel →
    ∀ n, evalTree (makeTree ps fuel s t) n = evalParts ((ps.take t).drop s) n := by
  intro fuel
  induction fuel with
  | zero =>
      intro s t h1 h2 n
      rw [List.drop_eq_nil_of_le (by simp; omega)]
      rfl
  | succ fuel ih =>
      intro s t h1 h2 n
      simp only [makeTree]
      split
      · rw [List.drop_eq_nil_of_le (by simp; omega)]
        rfl
      · rename_i hst
        have hm1 : s ≤ (s + (t - 1)) / 2 := by omega
        have hm2 : (s + (t - 1)) / 2 < t := by omega
        have hm3 : (s + (t - 1)) / 2 ≤ s + fuel := by omega
        generalize (s + (t - 1)) / 2 = m at *
        have hm : ps[m]? = some ps[m] := List.getElem?_eq_getElem (by omega)
        rw [hm]
        generalize ps[m] = d at *
        simp only
        rw [slice_split ps s m t hm1 hm2 d hm]
        have hpw : ((ps.take t).drop s).Pairwise fun d e => d.high < e.low :=
          List.Pairwise.sublist ((List.drop_sublist _ _).trans (List.take_sublist _ _)) hp.2
        rw [slice_split ps s m t hm1 hm2 d hm] at hpw
        obtain ⟨p1, p2, p3⟩ := List.pairwise_append.1 hpw
        obtain ⟨p4, p5⟩ := List.pairwise_cons.1 p2
        have hd := hp.1 d (List.mem_of_getElem? hm)
        have hAB : ∀ e ∈ (ps.take t).drop (m + 1), e.low ≤ e.high := fun e he =>
          (hp.1 e ((List.drop_sublist _ _).trans (List.take_sublist _ _) |>.subset he)).1
        have hA : ∀ e ∈ (ps.take m).drop s, e.high < d.low := fun e he => p3 e he d (by simp)
        simp only [evalTree]
        split
        · rename_i hlt
          rw [ih s m (by omega) hm3 n, evalParts_left]
          intro e he
          rcases List.mem_cons.1 he with rfl | he
          · exact Or.inl hlt
          · have := p4 e he; omega
        · rename_i hge
          rw [evalParts_append _ _ n (fun e he => by have := hA e he; omega)]
          simp only [evalParts]
          split
          · rename_i hgt
            rw [if_neg (by omega), ih (m + 1) t h1 (by omega) n]
          · rw [if_pos (by omega)]

theorem look_perm (A B : List (Int × α)) (h : A.Perm B) (nd : (A.map (·.1)).Nodup) (n : Int) :
    look n A = look n B := by
  have nd' : (B.map (·.1)).Nodup := (h.map _).nodup_iff.1 nd
  apply Option.ext
  intro a
  rw [look_mem A nd, look_mem B nd', h.mem_iff]

theorem compileNBranch_ok (clauses : List (Int × α)) (nd : (clauses.map (·.1)).Nodup) (t : DTree α)
    (h : compileNBranch clauses = some t) (n : Int) : evalTree t n = look n clauses := by
  have nd' : ((sort clauses).map (·.1)).Nodup := ((sort_perm clauses).map _).nodup_iff.2 nd
  obtain ⟨ps, h1, rfl⟩ := Option.map_eq_some_iff.1 h
  have hs := strict_of _ (sort_ordered clauses) nd'
  obtain ⟨h2, -, h4⟩ := partition_ok (sort clauses) hs _ 0 ps (by omega) h1
  rw [makeTree_ok ps h2 _ 0 _ (le_refl _) (by omega) n, List.take_length, List.drop_zero, h4 n, List.drop_zero]
  exact look_perm _ _ (sort_perm clauses) nd' n

end Mosml.Cond
