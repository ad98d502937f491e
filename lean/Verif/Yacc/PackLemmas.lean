import Verif.Yacc.Pack
import Mathlib.Data.List.GetD

namespace Mosml.Yacc.Pack

/-- what the vectors of a grammar look like: the symbols or states are not negative and differ -/
def Good (v : Vec) : Prop := (∀ p ∈ v, 0 ≤ p.1) ∧ (v.map Prod.fst).Nodup

theorem bind_ok {A B : Type} {x : Res A} {f : A → Res B} {b : B} (h : x.bind f = .ok b) : ∃ a, x = .ok a ∧ f a = .ok b := by
  cases x with
  | ok a => exact ⟨a, rfl, h⟩
  | fatal => simp [Res.bind] at h
  | undef => simp [Res.bind] at h

/-- the arrays have the same length, which is bounded, and hold the same as before at every place of the old arrays -/
structure Ext (s s' : St) : Prop where
  tab : ∃ r, s'.table = s.table ++ List.replicate r 0
  chk : ∃ r, s'.check = s.check ++ List.replicate r (-1)
  low : s'.lowzero = s.lowzero
  hi : s'.high = s.high

theorem Ext.refl (s : St) : Ext s s := ⟨⟨0, by simp⟩, ⟨0, by simp⟩, rfl, rfl⟩

theorem Ext.trans {a b c : St} (h : Ext a b) (k : Ext b c) : Ext a c := by
  obtain ⟨⟨r, h1⟩, ⟨r', h2⟩, h3, h4⟩ := h
  obtain ⟨⟨q, k1⟩, ⟨q', k2⟩, k3, k4⟩ := k
  refine ⟨⟨r + q, ?_⟩, ⟨r' + q', ?_⟩, k3.trans h3, k4.trans h4⟩
  · rw [k1, h1, List.append_assoc, List.replicate_append_replicate]
  · rw [k2, h2, List.append_assoc, List.replicate_append_replicate]

/-- an invariant of the arrays alone -/
def Wf (s : St) : Prop := s.check.length = s.table.length ∧ s.table.length ≤ MAXTABLE + 200

theorem grow_ext (s : St) (loc : Nat) : Ext s (grow s loc) := ⟨⟨_, rfl⟩, ⟨_, rfl⟩, rfl, rfl⟩

theorem newmax_gt (m loc : Nat) (h : m ≤ loc) : loc < newmax m loc ∧ newmax m loc ≤ loc + 200 := by
  unfold newmax; omega

theorem grow_wf {s : St} {loc : Nat} (w : Wf s) (h : s.table.length ≤ loc) (hl : loc < MAXTABLE) :
    Wf (grow s loc) ∧ loc < (grow s loc).table.length := by
  have := newmax_gt _ _ h
  refine ⟨⟨?_, ?_⟩, ?_⟩
  · simp [grow, w.1]
  · simp only [grow, List.length_append, List.length_replicate]; omega
  · simp only [grow, List.length_append, List.length_replicate]; omega

/-- the step of `tryPlace` that makes room -/
def room (loc : Nat) (s : St) : Res St :=
  if loc ≥ s.table.length then if loc ≥ MAXTABLE then .fatal else .ok (grow s loc) else .ok s

theorem room_ok {s s' : St} {loc : Nat} (w : Wf s) (h : room loc s = .ok s') : Wf s' ∧ Ext s s' ∧ loc < s'.table.length := by
  unfold room at h
  split at h
  · rename_i c
    split at h
    · cases h
    · rename_i d
      cases h
      have := grow_wf w c (by omega)
      exact ⟨this.1, grow_ext _ _, this.2⟩
  · rename_i c
    cases h
    exact ⟨w, Ext.refl _, by omega⟩

theorem room_ne (s : St) (loc : Nat) : room loc s ≠ .undef := by
  unfold room; split <;> (try split) <;> simp

theorem tryPlace_cons (j f t : Int) (v : Vec) (s : St) : tryPlace j ((f, t) :: v) s =
    if j + f < 0 then .undef else (room (j + f).toNat s).bind fun s =>
      match s.check[(j + f).toNat]? with
      | none => .undef
      | some c => if c ≠ -1 then .ok (s, false) else tryPlace j v s := rfl

theorem tryPlace_ok (j : Int) : ∀ (v : Vec) (s s' : St) (b : Bool), Wf s → tryPlace j v s = .ok (s', b) →
    Wf s' ∧ Ext s s' ∧ (b = true → ∀ p ∈ v, ∃ loc : Nat, (loc : Int) = j + p.1 ∧ s'.check[loc]? = some (-1))
  | [], s, s', b, w, h => by
    cases h
    exact ⟨w, Ext.refl _, by simp⟩
  | (f, t) :: v, s, s', b, w, h => by
    rw [tryPlace_cons] at h
    split at h
    · cases h
    rename_i hn
    obtain ⟨s1, h1, h2⟩ := bind_ok h
    obtain ⟨w1, e1, l1⟩ := room_ok w h1
    have hc : (j + f).toNat < s1.check.length := by rw [w1.1]; exact l1
    rw [List.getElem?_eq_getElem hc] at h2
    dsimp only at h2
    split at h2
    · cases h2
      exact ⟨w1, e1, by simp⟩
    · rename_i hm
      obtain ⟨w2, e2, k2⟩ := tryPlace_ok j v s1 s' b w1 h2
      refine ⟨w2, e1.trans e2, ?_⟩
      intro hb p hp
      rcases List.mem_cons.1 hp with rfl | hp
      · refine ⟨(j + f).toNat, by dsimp only; omega, ?_⟩
        obtain ⟨r, hr⟩ := e2.chk
        rw [hr, List.getElem?_append_left hc, List.getElem?_eq_getElem hc]
        simpa using hm
      · exact k2 hb p hp

theorem tryPlace_ne (j : Int) : ∀ (v : Vec) (s : St), Wf s → (∀ p ∈ v, 0 ≤ j + p.1) → tryPlace j v s ≠ .undef
  | [], s, _, _ => by simp [tryPlace]
  | (f, t) :: v, s, w, h => by
    rw [tryPlace_cons, if_neg (by have := h (f, t) (by simp); simp only at this; omega)]
    cases hr : room (j + f).toNat s with
    | fatal => simp [Res.bind]
    | undef => exact absurd hr (room_ne _ _)
    | ok s1 =>
      obtain ⟨w1, e1, l1⟩ := room_ok w hr
      have hc : (j + f).toNat < s1.check.length := by rw [w1.1]; exact l1
      simp only [Res.bind]
      rw [List.getElem?_eq_getElem hc]
      dsimp only
      split
      · simp
      · exact tryPlace_ne j v s1 w1 fun p hp => h p (by simp [hp])

/-- what `write` does -/
theorem write_ok (j : Int) : ∀ (v : Vec) (s s' : St), Wf s → (v.map Prod.fst).Nodup → write j v s = .ok s' →
    Wf s' ∧ s'.lowzero = s.lowzero ∧ s.high ≤ s'.high ∧ s'.table.length = s.table.length ∧
    (∀ loc : Nat, (∀ p ∈ v, (loc : Int) ≠ j + p.1) → s'.check[loc]? = s.check[loc]? ∧ s'.table[loc]? = s.table[loc]?) ∧
    (∀ p ∈ v, ∃ loc : Nat, (loc : Int) = j + p.1 ∧ s'.check[loc]? = some p.1 ∧ s'.table[loc]? = some p.2 ∧ loc ≤ s'.high)
  | [], s, s', w, _, h => by
    cases h
    exact ⟨w, rfl, le_refl _, rfl, by simp, by simp⟩
  | (f, t) :: v, s, s', w, nd, h => by
    unfold write at h
    dsimp only at h
    split at h
    · cases h
    rename_i hn
    split at h
    swap
    · cases h
    rename_i hl
    rw [List.map_cons, List.nodup_cons] at nd
    obtain ⟨w2, l2, h2, t2, o2, e2⟩ := write_ok j v _ s' (by exact ⟨by simpa using w.1, by simpa using w.2⟩) nd.2 h
    have h2' : max s.high (j + f).toNat ≤ s'.high := h2
    refine ⟨w2, l2, by omega, by simpa using t2, ?_, ?_⟩
    · intro loc hloc
      obtain ⟨a, b⟩ := o2 loc fun p hp => hloc p (by simp [hp])
      have hne : (j + f).toNat ≠ loc := by
        have := hloc (f, t) (by simp)
        simp only at this
        omega
      rw [a, b]
      exact ⟨List.getElem?_set_ne hne, List.getElem?_set_ne hne⟩
    · intro p hp
      rcases List.mem_cons.1 hp with rfl | hp
      · obtain ⟨a, b⟩ := o2 (j + f).toNat (by
          intro p hp he
          apply nd.1
          have : f = p.1 := by omega
          exact List.mem_map.2 ⟨p, hp, this.symm⟩)
        refine ⟨(j + f).toNat, by dsimp only; omega, ?_, ?_, by omega⟩
        · rw [a]
          exact List.getElem?_set_self (by rw [w.1]; exact hl)
        · rw [b]
          exact List.getElem?_set_self hl
      · exact e2 p hp

theorem write_ne (j : Int) : ∀ (v : Vec) (s : St), (∀ p ∈ v, ∃ loc : Nat, (loc : Int) = j + p.1 ∧ loc < s.table.length) →
    ∃ s', write j v s = .ok s'
  | [], s, _ => ⟨s, rfl⟩
  | (f, t) :: v, s, h => by
    obtain ⟨loc, h1, h2⟩ := h (f, t) (by simp)
    simp only at h1
    unfold write
    dsimp only
    rw [if_neg (by omega), if_pos (by omega)]
    exact write_ne j v _ fun p hp => by
      obtain ⟨l, a, b⟩ := h p (by simp [hp])
      exact ⟨l, a, by simpa using b⟩

theorem lowScan_ne (d : Nat) : ∀ (c : List Int) (l : Nat), ∃ z, lowScan (some d) c l = .ok z
  | [], _ => ⟨_, rfl⟩
  | c :: cs, l => by
    unfold lowScan
    split
    · exact lowScan_ne d cs (l + 1)
    · exact ⟨_, rfl⟩

/-- what `packVector` has done: it found a place with room and wrote the vector there -/
structure Packed (v : Vec) (pos : List Int) (s : St) (j : Int) (s' : St) : Prop where
  wf : Wf s'
  nz : j ≠ 0
  fresh : j ∉ pos
  hi : s.high ≤ s'.high
  keep : ∀ (loc : Nat) (c : Int), s.check[loc]? = some c → c ≠ -1 → s'.check[loc]? = some c ∧ s'.table[loc]? = s.table[loc]?
  new : ∀ p ∈ v, ∃ loc : Nat, (loc : Int) = j + p.1 ∧ s'.check[loc]? = some p.1 ∧ s'.table[loc]? = some p.2 ∧ loc ≤ s'.high
  only : ∀ (loc : Nat) (c : Int), s'.check[loc]? = some c → c ≠ -1 → s.check[loc]? = some c ∨ ∃ p ∈ v, (loc : Int) = j + p.1

theorem ext_check {s s' : St} (e : Ext s s') {loc : Nat} {c : Int} (h : s'.check[loc]? = some c) (hc : c ≠ -1) : s.check[loc]? = some c := by
  obtain ⟨r, hr⟩ := e.chk
  rw [hr] at h
  by_cases k : loc < s.check.length
  · rwa [List.getElem?_append_left k] at h
  · rw [List.getElem?_append_right (by omega), List.getElem?_replicate] at h
    split at h
    · cases h; exact absurd rfl hc
    · cases h

theorem check_ext {s s' : St} (e : Ext s s') {loc : Nat} {c : Int} (h : s.check[loc]? = some c) (w : Wf s) :
    s'.check[loc]? = some c ∧ s'.table[loc]? = s.table[loc]? := by
  have k : loc < s.check.length := (List.getElem?_eq_some_iff.1 h).1
  obtain ⟨r, hr⟩ := e.chk
  obtain ⟨q, hq⟩ := e.tab
  rw [hr, hq, List.getElem?_append_left k, List.getElem?_append_left (by rw [← w.1]; exact k)]
  exact ⟨h, rfl⟩

theorem packLoop_ok (over : Option Nat) (v : Vec) (pos : List Int) (g : Good v) : ∀ (fuel : Nat) (j : Int) (s : St) (j' : Int) (s' : St), Wf s →
    packLoop over v pos fuel j s = .ok (j', s') → Packed v pos s j' s'
  | 0, _, _, _, _, _, h => by cases h
  | fuel + 1, j, s, j', s', w, h => by
    unfold packLoop at h
    split at h
    · exact packLoop_ok over v pos g fuel _ s j' s' w h
    rename_i nz
    obtain ⟨⟨s1, b⟩, h1, h2⟩ := bind_ok h
    obtain ⟨w1, e1, k1⟩ := tryPlace_ok j v s s1 b w h1
    dsimp only at h2
    split at h2
    · rename_i hb
      obtain ⟨s2, h3, h4⟩ := bind_ok h2
      obtain ⟨lz, h5, h6⟩ := bind_ok h4
      cases h6
      simp only [Bool.and_eq_true, Bool.not_eq_true', List.contains_eq_mem, decide_eq_false_iff_not] at hb
      obtain ⟨hb, hp⟩ := hb
      have k2 := k1 hb
      obtain ⟨w2, l2, hi2, t2, o2, e2⟩ := write_ok j v s1 s2 w1 g.2 h3
      refine ⟨⟨w2.1, w2.2⟩, nz, hp, by rw [← e1.hi]; exact hi2, ?_, e2, ?_⟩
      · intro loc c hc hm
        obtain ⟨a, b⟩ := check_ext e1 hc w
        have hne : ∀ p ∈ v, (loc : Int) ≠ j + p.1 := by
          intro p hp he
          obtain ⟨l, x, y⟩ := k2 p hp
          have : l = loc := by omega
          subst this
          rw [a] at y
          cases y
          exact hm rfl
        obtain ⟨x, y⟩ := o2 loc hne
        exact ⟨x.trans a, y.trans b⟩
      · intro loc c hc hm
        by_cases hx : ∃ p ∈ v, (loc : Int) = j + p.1
        · exact .inr hx
        · left
          have hne : ∀ p ∈ v, (loc : Int) ≠ j + p.1 := fun p hp he => hx ⟨p, hp, he⟩
          obtain ⟨x, y⟩ := o2 loc hne
          dsimp only at hc
          rw [x] at hc
          exact ext_check e1 hc hm
    · have := packLoop_ok over v pos g fuel (j + 1) s1 j' s' w1 h2
      refine ⟨this.wf, this.nz, this.fresh, by rw [← e1.hi]; exact this.hi, ?_, this.new, ?_⟩
      · intro loc c hc hm
        obtain ⟨a, b⟩ := check_ext e1 hc w
        obtain ⟨x, y⟩ := this.keep loc c a hm
        exact ⟨x, y.trans b⟩
      · intro loc c hc hm
        rcases this.only loc c hc hm with x | x
        · exact .inl (ext_check e1 x hm)
        · exact .inr x

theorem packVector_ok {over : Option Nat} {v : Vec} {pos : List Int} {s s' : St} {j : Int} (g : Good v) (w : Wf s)
    (h : packVector over v pos s = .ok (j, s')) : Packed v pos s j s' := by
  cases v with
  | nil => cases h
  | cons p v => exact packLoop_ok over _ pos g _ _ s j s' w h

theorem firstPlace_ge (lz : Nat) : ∀ (v : Vec) (j : Int), j ≤ firstPlace lz v j ∧ ∀ p ∈ v, 0 ≤ firstPlace lz v j + p.1
  | [], j => by simp [firstPlace]
  | (f, t) :: v, j => by
    obtain ⟨a, b⟩ := firstPlace_ge lz v (if (lz : Int) - f > j then lz - f else j)
    simp only [firstPlace]
    have hj : j ≤ (if (lz : Int) - f > j then lz - f else j) ∧ (lz : Int) - f ≤ (if (lz : Int) - f > j then lz - f else j) := by
      split <;> omega
    refine ⟨by omega, ?_⟩
    intro p hp
    rcases List.mem_cons.1 hp with rfl | hp
    · dsimp only; omega
    · exact b p hp

theorem tryPlace_fatal {j f t : Int} {v : Vec} {s : St} (w : Wf s) (h : (MAXTABLE : Int) + 200 ≤ j + f) : tryPlace j ((f, t) :: v) s = .fatal := by
  have hw := w.2
  rw [tryPlace_cons, if_neg (by omega)]
  have : room (j + f).toNat s = .fatal := by
    unfold room
    rw [if_pos (by omega), if_pos (by omega)]
  rw [this]; rfl

theorem packLoop_ne (d : Nat) (f t : Int) (v : Vec) (pos : List Int) : ∀ (fuel : Nat) (j : Int) (s : St), Wf s →
    (∀ p ∈ (f, t) :: v, 0 ≤ j + p.1) →
    (((MAXTABLE : Int) + 200 - (j + f)).toNat + 2 ≤ fuel ∨ 1 ≤ fuel ∧ (MAXTABLE : Int) + 200 ≤ j + f ∧ j ≠ 0) →
    packLoop (some d) ((f, t) :: v) pos fuel j s ≠ .undef
  | 0, _, _, _, _, h => by omega
  | fuel + 1, j, s, w, hp, h => by
    have hp' : ∀ p ∈ (f, t) :: v, 0 ≤ j + 1 + p.1 := fun p m => by have := hp p m; omega
    unfold packLoop
    split
    · rename_i hj
      refine packLoop_ne d f t v pos fuel _ s w hp' ?_
      omega
    · rename_i hj
      by_cases hf : (MAXTABLE : Int) + 200 ≤ j + f
      · rw [tryPlace_fatal w hf]
        simp [Res.bind]
      · cases hr : tryPlace j ((f, t) :: v) s with
        | fatal => simp [Res.bind]
        | undef => exact absurd hr (tryPlace_ne j _ s w hp)
        | ok r =>
          obtain ⟨s1, b⟩ := r
          obtain ⟨w1, e1, k1⟩ := tryPlace_ok j _ s s1 b w hr
          simp only [Res.bind]
          split
          · rename_i hb
            simp only [Bool.and_eq_true] at hb
            obtain ⟨s2, h2⟩ := write_ne j ((f, t) :: v) s1 fun p m => by
              obtain ⟨l, x, y⟩ := k1 hb.1 p m
              refine ⟨l, x, ?_⟩
              rw [← w1.1]
              exact (List.getElem?_eq_some_iff.1 y).1
            obtain ⟨z, hz⟩ := lowScan_ne d (s2.check.drop s2.lowzero) s2.lowzero
            rw [h2]
            simp [hz]
          · exact packLoop_ne d f t v pos fuel _ s1 w1 hp' (by omega)

theorem packVector_ne (d : Nat) (v : Vec) (pos : List Int) (s : St) (w : Wf s) (h : v ≠ []) :
    packVector (some d) v pos s ≠ .undef := by
  cases v with
  | nil => exact absurd rfl h
  | cons p v =>
    obtain ⟨f, t⟩ := p
    have := firstPlace_ge s.lowzero v (s.lowzero - f)
    refine packLoop_ne d f t v pos _ _ s w ?_ (.inl (le_refl _))
    intro p hp
    rcases List.mem_cons.1 hp with rfl | hp
    · dsimp only; omega
    · exact this.2 p hp

/-! ### the order -/

theorem insertLoop2_perm (vecs : List Vec) (width : List Int) (i : Nat) (w : Int) (t : Nat) : ∀ o, (insertLoop2 vecs width i w t o).Perm (i :: o)
  | [] => List.Perm.refl _
  | j :: r => by
    unfold insertLoop2
    split
    · exact ((insertLoop2_perm vecs width i w t r).cons j).trans (List.Perm.swap i j r)
    · exact List.Perm.refl _

theorem insertOrder_perm (vecs : List Vec) (width : List Int) (i : Nat) (w : Int) (t : Nat) : ∀ o, (insertOrder vecs width i w t o).Perm (i :: o)
  | [] => List.Perm.refl _
  | j :: r => by
    unfold insertOrder
    split
    · exact ((insertOrder_perm vecs width i w t r).cons j).trans (List.Perm.swap i j r)
    · exact insertLoop2_perm vecs width i w t _

theorem sortLoop_spec (vecs : List Vec) (width : List Int) : ∀ n, (sortLoop vecs width n).Nodup ∧
    ∀ i, i ∈ sortLoop vecs width n ↔ i < n ∧ vecs.getD i [] ≠ []
  | 0 => by simp [sortLoop]
  | n + 1 => by
    obtain ⟨a, b⟩ := sortLoop_spec vecs width n
    have hlen : (vecs.getD n []).length > 0 ↔ vecs.getD n [] ≠ [] := List.length_pos_iff
    simp only [sortLoop]
    split
    · rename_i h
      have hp := insertOrder_perm vecs width n (width.getD n 0) (vecs.getD n []).length (sortLoop vecs width n)
      refine ⟨hp.nodup_iff.2 (List.nodup_cons.2 ⟨?_, a⟩), ?_⟩
      · intro hm; have := (b n).1 hm; omega
      · intro i
        rw [hp.mem_iff, List.mem_cons, b]
        constructor
        · rintro (rfl | ⟨x, y⟩)
          · exact ⟨by omega, hlen.1 h⟩
          · exact ⟨by omega, y⟩
        · rintro ⟨x, y⟩
          by_cases e : i = n
          · exact .inl e
          · exact .inr ⟨by omega, y⟩
    · rename_i h
      refine ⟨a, ?_⟩
      intro i
      rw [b]
      constructor
      · rintro ⟨x, y⟩; exact ⟨by omega, y⟩
      · rintro ⟨x, y⟩
        refine ⟨?_, y⟩
        by_contra hc
        have : i = n := by omega
        subst this
        exact h (hlen.2 y)

theorem matchLoop_spec (vecs : List Vec) (width : List Int) (i : Nat) : ∀ (prev : List Nat) (j : Nat), matchLoop vecs width i prev = some j →
    j ∈ prev ∧ vecs.getD j [] = vecs.getD i []
  | [], j, h => by cases h
  | k :: prev, j, h => by
    unfold matchLoop at h
    split at h
    · cases h
    split at h
    · rename_i e
      cases h
      exact ⟨by simp, e⟩
    · have := matchLoop_spec vecs width i prev j h
      exact ⟨by simp [this.1], this.2⟩

theorem matching_spec {nstates : Nat} {vecs : List Vec} {width : List Int} {i j : Nat} {prev : List Nat}
    (h : matchingVector nstates vecs width i prev = some j) : j ∈ prev ∧ vecs.getD j [] = vecs.getD i [] := by
  unfold matchingVector at h
  split at h
  · cases h
  · exact matchLoop_spec vecs width i prev j h

/-! ### the table -/

structure Inv (vecs : List Vec) (dn : List Nat) (base pos : List Int) (s : St) : Prop where
  wf : Wf s
  len : base.length = vecs.length
  nz : ∀ i ∈ dn, i < vecs.length ∧ base.getD i 0 ≠ 0
  ent : ∀ i ∈ dn, ∀ p ∈ vecs.getD i [], ∃ loc : Nat, (loc : Int) = base.getD i 0 + p.1 ∧ s.check[loc]? = some p.1 ∧ s.table[loc]? = some p.2 ∧
    loc ≤ s.high
  own : ∀ (loc : Nat) (c : Int), s.check[loc]? = some c → c ≠ -1 → ∃ i ∈ dn, ∃ p ∈ vecs.getD i [], p.1 = c ∧ (loc : Int) = base.getD i 0 + c
  inj : ∀ i ∈ dn, ∀ j ∈ dn, base.getD i 0 = base.getD j 0 → vecs.getD i [] = vecs.getD j []
  mem : ∀ i ∈ dn, base.getD i 0 ∈ pos
  zero : ∀ i, i ∉ dn → base.getD i 0 = 0

theorem getD_set_self {base : List Int} {i : Nat} (x : Int) (h : i < base.length) : (base.set i x).getD i 0 = x := by
  simp [List.getD_eq_getElem?_getD, h]

theorem getD_set_ne {base : List Int} {i j : Nat} (x : Int) (h : i ≠ j) : (base.set i x).getD j 0 = base.getD j 0 := by
  simp [List.getD_eq_getElem?_getD, List.getElem?_set_ne h]

theorem Inv.share {vecs : List Vec} {dn : List Nat} {base pos : List Int} {s : St} {i j : Nat} (v : Inv vecs dn base pos s)
    (hi : i < vecs.length) (hn : i ∉ dn) (hj : j ∈ dn) (e : vecs.getD j [] = vecs.getD i []) :
    Inv vecs (i :: dn) (base.set i (base.getD j 0)) (pos ++ [base.getD j 0]) s := by
  have hbl : i < base.length := by rw [v.len]; exact hi
  have b0 : (base.set i (base.getD j 0)).getD i 0 = base.getD j 0 := getD_set_self _ hbl
  have b1 : ∀ k ∈ dn, (base.set i (base.getD j 0)).getD k 0 = base.getD k 0 := fun k hk =>
    getD_set_ne _ fun h => hn (h ▸ hk)
  refine ⟨v.wf, by simpa using v.len, ?_, ?_, ?_, ?_, ?_, ?_⟩
  · intro k hk
    rcases List.mem_cons.1 hk with rfl | hk
    · rw [b0]; exact ⟨hi, (v.nz j hj).2⟩
    · rw [b1 k hk]; exact v.nz k hk
  · intro k hk
    rcases List.mem_cons.1 hk with rfl | hk
    · rw [b0, ← e]; exact v.ent j hj
    · rw [b1 k hk]; exact v.ent k hk
  · intro loc c h hc
    obtain ⟨k, hk, p, hp, h1, h2⟩ := v.own loc c h hc
    exact ⟨k, by simp [hk], p, hp, h1, by rw [b1 k hk]; exact h2⟩
  · intro k hk0 l hl0
    rcases List.mem_cons.1 hk0 with hk | hk <;> rcases List.mem_cons.1 hl0 with hl | hl <;> clear hk0 hl0 <;> (try subst hk) <;> (try subst hl)
    · exact fun _ => by first | rfl | simp_all
    · rw [b0, b1 l hl, ← e]; exact v.inj j hj l hl
    · rw [b0, b1 k hk, ← e]; exact v.inj k hk j hj
    · rw [b1 k hk, b1 l hl]; exact v.inj k hk l hl
  · intro k hk
    rcases List.mem_cons.1 hk with rfl | hk
    · rw [b0]; simp
    · rw [b1 k hk]; exact List.mem_append_left _ (v.mem k hk)
  · intro k hk
    simp only [List.mem_cons, not_or] at hk
    rw [getD_set_ne _ (Ne.symm hk.1)]
    exact v.zero k hk.2

theorem Inv.pack {vecs : List Vec} {dn : List Nat} {base pos : List Int} {s s' : St} {i : Nat} {place : Int} (v : Inv vecs dn base pos s)
    (hi : i < vecs.length) (hn : i ∉ dn) (g : ∀ v ∈ vecs, Good v) (pk : Packed (vecs.getD i []) pos s place s') :
    Inv vecs (i :: dn) (base.set i place) (pos ++ [place]) s' := by
  have hbl : i < base.length := by rw [v.len]; exact hi
  have b0 : (base.set i place).getD i 0 = place := getD_set_self _ hbl
  have b1 : ∀ k ∈ dn, (base.set i place).getD k 0 = base.getD k 0 := fun k hk => getD_set_ne _ fun h => hn (h ▸ hk)
  have gk : ∀ k < vecs.length, Good (vecs.getD k []) := fun k hk => by
    rw [List.getD_eq_getElem _ _ hk]; exact g _ (List.getElem_mem hk)
  refine ⟨pk.wf, by simpa using v.len, ?_, ?_, ?_, ?_, ?_, ?_⟩
  · intro k hk
    rcases List.mem_cons.1 hk with rfl | hk
    · rw [b0]; exact ⟨hi, pk.nz⟩
    · rw [b1 k hk]; exact v.nz k hk
  · intro k hk
    rcases List.mem_cons.1 hk with rfl | hk
    · rw [b0]; exact pk.new
    · rw [b1 k hk]
      intro p hp
      obtain ⟨loc, h1, h2, h3, h4⟩ := v.ent k hk p hp
      have hp0 := (gk k (v.nz k hk).1).1 p hp
      obtain ⟨a, b⟩ := pk.keep loc p.1 h2 (by omega)
      exact ⟨loc, h1, a, b.trans h3, h4.trans pk.hi⟩
  · intro loc c h hc
    rcases pk.only loc c h hc with h | ⟨p, hp, h'⟩
    · obtain ⟨k, hk, p, hp, h1, h2⟩ := v.own loc c h hc
      exact ⟨k, by simp [hk], p, hp, h1, by rw [b1 k hk]; exact h2⟩
    · obtain ⟨l, x, y, _⟩ := pk.new p hp
      have : l = loc := by omega
      subst this
      rw [h] at y
      cases y
      exact ⟨i, by simp, p, hp, rfl, by rw [b0]; exact h'⟩
  · intro k hk0 l hl0
    rcases List.mem_cons.1 hk0 with hk | hk <;> rcases List.mem_cons.1 hl0 with hl | hl <;> clear hk0 hl0 <;> (try subst hk) <;> (try subst hl)
    · exact fun _ => by first | rfl | simp_all
    · rw [b0, b1 l hl]; intro h; exact absurd (h ▸ v.mem l hl) pk.fresh
    · rw [b0, b1 k hk]; intro h; exact absurd (h ▸ v.mem k hk) pk.fresh
    · rw [b1 k hk, b1 l hl]; exact v.inj k hk l hl
  · intro k hk
    rcases List.mem_cons.1 hk with rfl | hk
    · rw [b0]; simp
    · rw [b1 k hk]; exact List.mem_append_left _ (v.mem k hk)
  · intro k hk
    simp only [List.mem_cons, not_or] at hk
    rw [getD_set_ne _ (Ne.symm hk.1)]
    exact v.zero k hk.2

theorem packLoopTable_ok (nstates : Nat) (vecs : List Vec) (width : List Int) (over : Option Nat) (g : ∀ v ∈ vecs, Good v) :
    ∀ (order dn : List Nat) (base pos : List Int) (s : St) (base' : List Int) (s' : St), Inv vecs dn base pos s →
      order.Nodup → (∀ i ∈ order, i < vecs.length ∧ i ∉ dn) →
      packLoopTable nstates vecs width over order dn base pos s = .ok (base', s') →
      ∃ pos', Inv vecs (order.reverse ++ dn) base' pos' s'
  | [], dn, base, pos, s, base', s', v, _, _, h => by
    cases h
    exact ⟨pos, by simpa using v⟩
  | i :: order, dn, base, pos, s, base', s', v, nd, ho, h => by
    rw [List.nodup_cons] at nd
    obtain ⟨hi, hn⟩ := ho i (by simp)
    have ho' : ∀ k ∈ order, k < vecs.length ∧ k ∉ i :: dn := by
      intro k hk
      obtain ⟨a, b⟩ := ho k (by simp [hk])
      refine ⟨a, ?_⟩
      simp only [List.mem_cons, not_or]
      exact ⟨fun e => nd.1 (e ▸ hk), b⟩
    have hr : (i :: order).reverse ++ dn = order.reverse ++ i :: dn := by simp
    rw [hr]
    unfold packLoopTable at h
    split at h
    · rename_i j hj
      obtain ⟨a, b⟩ := matching_spec hj
      exact packLoopTable_ok nstates vecs width over g order _ _ _ s base' s' (v.share hi hn a b) nd.2 ho' h
    · obtain ⟨⟨place, s1⟩, h1, h2⟩ := bind_ok h
      have gi : Good (vecs.getD i []) := by rw [List.getD_eq_getElem _ _ hi]; exact g _ (List.getElem_mem hi)
      exact packLoopTable_ok nstates vecs width over g order _ _ _ s1 base' s' (v.pack hi hn g (packVector_ok gi v.wf h1)) nd.2 ho' h2

theorem packLoopTable_ne (nstates : Nat) (vecs : List Vec) (width : List Int) (d : Nat) (g : ∀ v ∈ vecs, Good v) :
    ∀ (order dn : List Nat) (base pos : List Int) (s : St), Inv vecs dn base pos s →
      order.Nodup → (∀ i ∈ order, i < vecs.length ∧ i ∉ dn) → (∀ i ∈ order, vecs.getD i [] ≠ []) →
      packLoopTable nstates vecs width (some d) order dn base pos s ≠ .undef
  | [], dn, base, pos, s, v, _, _, _ => by simp [packLoopTable]
  | i :: order, dn, base, pos, s, v, nd, ho, he => by
    rw [List.nodup_cons] at nd
    obtain ⟨hi, hn⟩ := ho i (by simp)
    have ho' : ∀ k ∈ order, k < vecs.length ∧ k ∉ i :: dn := by
      intro k hk
      obtain ⟨a, b⟩ := ho k (by simp [hk])
      refine ⟨a, ?_⟩
      simp only [List.mem_cons, not_or]
      exact ⟨fun e => nd.1 (e ▸ hk), b⟩
    have he' : ∀ k ∈ order, vecs.getD k [] ≠ [] := fun k hk => he k (by simp [hk])
    unfold packLoopTable
    split
    · rename_i j hj
      obtain ⟨a, b⟩ := matching_spec hj
      exact packLoopTable_ne nstates vecs width d g order _ _ _ s (v.share hi hn a b) nd.2 ho' he'
    · cases hr : packVector (some d) (vecs.getD i []) pos s with
      | fatal => simp [Res.bind]
      | undef => exact absurd hr (packVector_ne d _ pos s v.wf (he i (by simp)))
      | ok r =>
        have gi : Good (vecs.getD i []) := by rw [List.getD_eq_getElem _ _ hi]; exact g _ (List.getElem_mem hi)
        exact packLoopTable_ne nstates vecs width d g order _ _ _ r.2 (v.pack hi hn g (packVector_ok gi v.wf hr)) nd.2 ho' he'

theorem Inv.start (vecs : List Vec) : Inv vecs [] (List.replicate vecs.length 0) []
    { table := List.replicate 1000 0, check := List.replicate 1000 (-1), lowzero := 0, high := 0 } := by
  refine ⟨⟨by simp only [List.length_replicate], by simp only [List.length_replicate]; decide⟩, by simp only [List.length_replicate],
    fun i h => absurd h List.not_mem_nil, fun i h => absurd h List.not_mem_nil, ?_, fun i h => absurd h List.not_mem_nil,
    fun i h => absurd h List.not_mem_nil, ?_⟩
  · intro loc c h hc
    dsimp only at h
    rw [List.getElem?_replicate] at h
    split at h
    · cases h; exact absurd rfl hc
    · cases h
  · intro i _
    rw [List.getD_eq_getElem?_getD, List.getElem?_replicate]
    split <;> rfl

theorem packTable_ok {nstates : Nat} {vecs : List Vec} {width : List Int} {over : Option Nat} {base : List Int} {s : St} (g : ∀ v ∈ vecs, Good v)
    (h : packTable nstates vecs width over = .ok (base, s)) :
    ∃ pos dn, Inv vecs dn base pos s ∧ ∀ i < vecs.length, i ∈ dn ↔ vecs.getD i [] ≠ [] := by
  obtain ⟨a, b⟩ := sortLoop_spec vecs width vecs.length
  obtain ⟨pos, v⟩ := packLoopTable_ok nstates vecs width over g _ _ _ _ _ base s (Inv.start vecs) ((List.reverse_perm _).nodup_iff.2 a)
    (fun i hi => ⟨((b i).1 (List.mem_reverse.1 hi)).1, by simp⟩) h
  refine ⟨pos, _, v, ?_⟩
  intro i hi
  simp [b, hi]

/-- looking up in the packed table -/
theorem Inv.lookup {vecs : List Vec} {dn : List Nat} {base pos : List Int} {s : St} (v : Inv vecs dn base pos s) (g : ∀ v ∈ vecs, Good v)
    (hd : ∀ i < vecs.length, i ∈ dn ↔ vecs.getD i [] ≠ []) {i : Nat} (hi : i < vecs.length) (x t : Int) (hx : 0 ≤ x) :
    lookup s (base.getD i 0) x = some t ↔ (x, t) ∈ vecs.getD i [] := by
  have gk : ∀ k < vecs.length, Good (vecs.getD k []) := fun k hk => by
    rw [List.getD_eq_getElem _ _ hk]; exact g _ (List.getElem_mem hk)
  unfold Pack.lookup
  dsimp only
  constructor
  · intro h
    split at h
    swap
    · cases h
    rename_i hc
    obtain ⟨h1, h2, h3, h4⟩ := hc
    obtain ⟨k, hk, p, hp, e1, e2⟩ := v.own _ x h4 (by omega)
    have hdi : i ∈ dn := by
      by_contra hc
      exact h1 (v.zero i hc)
    have eb : base.getD i 0 = base.getD k 0 := by omega
    rw [v.inj i hdi k hk eb]
    obtain ⟨l, a, b, c, d⟩ := v.ent k hk p hp
    have : l = (base.getD i 0 + x).toNat := by omega
    subst this
    rw [h] at c
    cases c
    rw [← e1]
    exact hp
  · intro h
    have hdi : i ∈ dn := (hd i hi).2 (List.ne_nil_of_mem h)
    obtain ⟨l, a, b, c, d⟩ := v.ent i hdi _ h
    simp only at a b c
    have hl : (base.getD i 0 + x).toNat = l := by omega
    rw [if_pos]
    · rw [hl]; exact c
    · refine ⟨(v.nz i hdi).2, by omega, by omega, ?_⟩
      rw [hl]; exact b

end Mosml.Yacc.Pack
