import Verif.Yacc.Digraph
import Mathlib.Data.List.Perm.Subperm

/-!
C36: `digraph` computes the least solution.
-/
namespace Mosml.Yacc.Digraph

open Warshall (Mem orLoop row row_lt pos_row orLoop_spec getD_set)
open Closure (bitr)

variable {R : List (Option (List Nat))} {n ts : Nat} {F0 : Mem}

/-! ### rows -/

theorem orRow (F : Mem) (hF : F.length = n * ts) {i j : Nat} (hi : i < n) (hj : j < n) :
    ∃ F', orLoop F (i * ts) (j * ts) (i * ts + ts) = some F' ∧ F'.length = n * ts ∧
      ∀ v k, k / 32 < ts → (Bit F' ts v k ↔ Bit F ts v k ∨ (v = i ∧ Bit F ts j k)) := by
  have h1 := row_lt (rs := ts) hi
  have h2 := row_lt (rs := ts) hj
  obtain ⟨F', e1, e2, e3⟩ := orLoop_spec (i * ts) (j * ts) (i * ts + ts) F (by omega) (by omega) (by
    rcases Nat.lt_trichotomy j i with h | h | h
    · have := row_lt (rs := ts) h; omega
    · subst h; left; rfl
    · have := row_lt (rs := ts) h; omega)
  refine ⟨F', e1, by omega, ?_⟩
  intro v k hk
  unfold Bit bitr row
  rw [e3]
  by_cases c : v = i
  · subst c
    rw [if_pos (by omega), BitVec.getLsbD_or, Bool.or_eq_true]
    have : j * ts + (v * ts + k / 32 - v * ts) = j * ts + k / 32 := by omega
    rw [this]
    simp
  · rw [if_neg]
    · simp [c]
    · rintro ⟨g1, g2⟩
      exact c (pos_row g1 g2 v (k / 32) hk rfl).1

theorem copyLoop_spec (a b e : Nat) (m : Mem) (h1 : e ≤ m.length) (h2 : b + (e - a) ≤ m.length) (hd : e ≤ b ∨ b + (e - a) ≤ a) :
    ∃ m', copyLoop m a b e = some m' ∧ m'.length = m.length ∧
      ∀ q, m'.getD q 0 = if b ≤ q ∧ q < b + (e - a) then m.getD (a + (q - b)) 0 else m.getD q 0 := by
  induction hk : e - a generalizing a b m with
  | zero =>
    refine ⟨m, ?_, rfl, ?_⟩
    · unfold copyLoop; rw [if_neg (by omega)]
    · intro q; rw [if_neg (by omega)]
  | succ k ih =>
    have ha : a < m.length := by omega
    unfold copyLoop
    rw [if_pos (by omega), List.getElem?_eq_getElem ha]
    dsimp only
    rw [if_pos (by omega)]
    have hb : b < m.length := by omega
    obtain ⟨m', e1, e2, e3⟩ := ih (a + 1) (b + 1) (m.set b m[a]) (by simp; omega) (by simp; omega) (by omega) (by omega)
    refine ⟨m', e1, by simpa using e2, ?_⟩
    intro q
    rw [e3 q, getD_set _ _ _ _ hb, getD_set _ _ _ _ hb]
    have hga : m[a] = m.getD a 0 := by simp [List.getD, ha]
    rw [hga]
    by_cases c : q = b
    · subst c
      rw [if_neg (by omega), if_pos rfl, if_pos (by omega)]
      simp
    · rw [if_neg c]
      by_cases c2 : b + 1 ≤ q ∧ q < b + 1 + k
      · have : a + 1 + (q - (b + 1)) = a + (q - b) := by omega
        rw [if_pos c2, this, if_neg (by omega), if_pos (by omega)]
      · rw [if_neg c2, if_neg (by omega)]

theorem copyRow (F : Mem) (hF : F.length = n * ts) {i j : Nat} (hi : i < n) (hj : j < n) (hij : i ≠ j) :
    ∃ F', copyLoop F (i * ts) (j * ts) (i * ts + ts) = some F' ∧ F'.length = n * ts ∧
      ∀ v k, k / 32 < ts → (Bit F' ts v k ↔ if v = j then Bit F ts i k else Bit F ts v k) := by
  have h1 := row_lt (rs := ts) hi
  have h2 := row_lt (rs := ts) hj
  obtain ⟨F', e1, e2, e3⟩ := copyLoop_spec (i * ts) (j * ts) (i * ts + ts) F (by omega) (by omega) (by
    rcases Nat.lt_trichotomy j i with h | h | h
    · have := row_lt (rs := ts) h; omega
    · omega
    · have := row_lt (rs := ts) h; omega)
  refine ⟨F', e1, by omega, ?_⟩
  intro v k hk
  unfold Bit bitr row
  rw [e3]
  by_cases c : v = j
  · subst c
    rw [if_pos rfl, if_pos (by omega)]
    have : i * ts + (v * ts + k / 32 - v * ts) = i * ts + k / 32 := by omega
    rw [this]
  · rw [if_neg c, if_neg]
    rintro ⟨g1, g2⟩
    exact c (pos_row (rs := ts) (j := j) g1 (by omega) v (k / 32) hk rfl).1

/-! ### the invariant -/

/-- `INDEX[v]` -/
def idx (s : St) (v : Nat) : Int := s.index.getD v 0

abbrev Reach (R : List (Option (List Nat))) := Relation.ReflTransGen (Succ R)

structure G (R : List (Option (List Nat))) (n ts : Nat) (F0 : Mem) (s : St) (stk : List Nat) : Prop where
  lenF : s.F.length = n * ts
  lenI : s.index.length = n + 1
  lenV : s.vert.length = n + 1
  top : s.top = stk.length
  vert : ∀ (p : Nat) v, stk[p]? = some v → s.vert[p + 1]? = some v
  nodup : stk.Nodup
  lt : ∀ v ∈ stk, v < n
  off : ∀ v, v < n → v ∉ stk → idx s v = 0 ∨ idx s v = n + 2
  grey : ∀ (p : Nat) v, stk[p]? = some v → 1 ≤ idx s v ∧ idx s v ≤ p + 1
  reach : ∀ v u, v ∈ stk → stk[(idx s v).toNat - 1]? = some u → Reach R v u
  closed : ∀ v, v < n → idx s v = n + 2 → ∀ w, Succ R v w → idx s w = n + 2
  final : ∀ v, v < n → idx s v = n + 2 → ∀ k, k / 32 < ts → Fin R F0 ts v k → Bit s.F ts v k
  sound : ∀ v, v < n → ∀ k, k / 32 < ts → Bit s.F ts v k → Fin R F0 ts v k
  lower : ∀ v, v < n → ∀ k, k / 32 < ts → Bit F0 ts v k → Bit s.F ts v k

theorem nodup_length {l : List Nat} (hn : l.Nodup) (hl : ∀ v ∈ l, v < n) : l.length ≤ n := by
  have : l ⊆ List.range n := fun v hv => List.mem_range.2 (hl v hv)
  have := (List.subperm_of_subset hn this).length_le
  simpa using this

theorem G.grey' {s : St} {stk : List Nat} (h : G R n ts F0 s stk) {v : Nat} (hv : v ∈ stk) : 1 ≤ idx s v ∧ idx s v ≤ stk.length ∧ idx s v ≤ n := by
  obtain ⟨p, hp, rfl⟩ := List.mem_iff_getElem.1 hv
  obtain ⟨g1, g2⟩ := h.grey p _ (List.getElem?_eq_getElem hp)
  have := nodup_length h.nodup h.lt
  refine ⟨g1, ?_, ?_⟩ <;> omega

theorem G.get {s : St} {stk : List Nat} (h : G R n ts F0 s stk) {v : Nat} (hv : v < n) : s.index[v]? = some (idx s v) := by
  have : v < s.index.length := by rw [h.lenI]; omega
  simp [idx, List.getD, this]

theorem G.nonwhite {s : St} {stk : List Nat} (h : G R n ts F0 s stk) {v : Nat} (hv : v < n) (h0 : idx s v ≠ 0) : v ∈ stk ∨ idx s v = n + 2 := by
  by_cases c : v ∈ stk
  · exact .inl c
  · rcases h.off v hv c with h | h
    · exact absurd h h0
    · exact .inr h

theorem idx_set (s : St) (i : Nat) (x : Int) (hi : i < s.index.length) (v : Nat) (F : Mem) (vt : List Nat) (t : Nat) :
    idx { F := F, index := s.index.set i x, vert := vt, top := t } v = if v = i then x else idx s v := by
  unfold idx
  simp only [List.getD]
  by_cases c : v = i
  · subst c; simp [hi]
  · rw [if_neg c, List.getElem?_set_ne (by omega)]

/-- what is unchanged by `traverse` -/
def Same (n ts : Nat) (s s' : St) : Prop := ∀ v, v < n → idx s v ≠ 0 → idx s' v = idx s v ∧ ∀ k, k / 32 < ts → (Bit s'.F ts v k ↔ Bit s.F ts v k)

theorem Same.trans {s s' s'' : St} (h1 : Same n ts s s') (h2 : Same n ts s' s'') : Same n ts s s'' := by
  intro v hv h0
  obtain ⟨a1, a2⟩ := h1 v hv h0
  obtain ⟨b1, b2⟩ := h2 v hv (by rw [a1]; exact h0)
  exact ⟨by rw [b1, a1], fun k hk => by rw [b2 k hk, a2 k hk]⟩

/-- the vertices above `stk` that have been left are like this, where `lo` is a lower bound of their indices and `B` is included in their set -/
structure Seg (R : List (Option (List Nat))) (n ts : Nat) (F0 : Mem) (s : St) (stk : List Nat) (i : Nat) (E : Nat → Nat → Prop) (vs : List Nat) (lo : Int) (B : Nat → Prop) : Prop where
  nonwhite : ∀ v ∈ vs, ∀ w, E v w → idx s w ≠ 0
  low : ∀ v ∈ vs, lo ≤ idx s v
  own : ∀ v ∈ vs, ∀ k, k / 32 < ts → Bit F0 ts v k → B k
  black : ∀ v ∈ vs, ∀ w, E v w → idx s w = n + 2 → ∀ k, k / 32 < ts → Fin R F0 ts w k → B k
  below : ∀ v ∈ vs, ∀ w ∈ stk, E v w → lo ≤ idx s w
  conn : ∀ v ∈ vs, Reach R i v

/-- indices of the vertices left are below their position -/
def Left (s : St) (stk' : List Nat) (m : Nat) : Prop := ∀ (p : Nat) v, stk'[p]? = some v → m ≤ p → idx s v ≤ p

/-- the contract of `traverse` -/
def Post (R : List (Option (List Nat))) (n ts : Nat) (F0 : Mem) (s : St) (stk : List Nat) (i : Nat) (s' : St) : Prop :=
  Same n ts s s' ∧ (∀ v, v < n → idx s' v = 0 → idx s v = 0) ∧
  ((idx s' i = n + 2 ∧ G R n ts F0 s' stk) ∨
    ∃ rest, G R n ts F0 s' (stk ++ i :: rest) ∧ Left s' (stk ++ i :: rest) stk.length ∧
      Seg R n ts F0 s' stk i (Succ R) (i :: rest) (idx s' i) (fun k => Bit s'.F ts i k))

/-- the state of the loop over the edges of `i`; `dn` has been done -/
structure Loop (R : List (Option (List Nat))) (n ts : Nat) (F0 : Mem) (s0 : St) (stk : List Nat) (i : Nat) (dn : List Nat) (rest : List Nat) (s : St) : Prop where
  dnSucc : ∀ w ∈ dn, Succ R i w
  g : G R n ts F0 s (stk ++ i :: rest)
  same : Same n ts s0 s
  white : ∀ v, v < n → idx s v = 0 → idx s0 v = 0
  left : Left s (stk ++ i :: rest) (stk.length + 1)
  seg : Seg R n ts F0 s stk i (fun v w => if v = i then w ∈ dn else Succ R v w) (i :: rest) (idx s i) (fun k => Bit s.F ts i k)

/-! ### taking the minimum and the union -/

theorem merge_step (hv : Valid R n) {s0 s : St} {stk : List Nat} {i j : Nat} {dn rest : List Nat} (hij : Succ R i j) (hdn : ∀ w ∈ dn, Succ R i w) (hi : i < n)
    (hg : G R n ts F0 s (stk ++ i :: rest)) (hs : Same n ts s0 s) (hs0 : idx s0 i = 0) (hw : ∀ v, v < n → idx s v = 0 → idx s0 v = 0)
    (hl : Left s (stk ++ i :: rest) (stk.length + 1)) (hj0 : idx s j ≠ 0)
    (hseg : Seg R n ts F0 s stk i (fun v w => if v = i then w ∈ dn else Succ R v w) (i :: rest) (min (idx s i) (idx s j)) (fun k => Bit s.F ts i k ∨ Bit s.F ts j k)) :
    ∃ F', orLoop s.F (i * ts) (j * ts) (i * ts + ts) = some F' ∧
      Loop R n ts F0 s0 stk i (dn ++ [j]) rest
        { F := F', index := (if idx s i > idx s j then { s with index := s.index.set i (idx s j) } else s).index, vert := s.vert, top := s.top } := by
  have hj : j < n := hv.lt i j hij
  obtain ⟨F', e1, e2, e3⟩ := orRow s.F hg.lenF hi hj
  refine ⟨F', e1, ?_⟩
  have hmem : i ∈ stk ++ i :: rest := by simp
  have hin := hg.grey' hmem
  -- the new indices
  have hidx : ∀ v, idx { F := F', index := (if idx s i > idx s j then { s with index := s.index.set i (idx s j) } else s).index, vert := s.vert, top := s.top } v =
      if v = i then min (idx s i) (idx s j) else idx s v := by
    intro v
    by_cases c : idx s i > idx s j
    · rw [if_pos c]
      dsimp only
      rw [idx_set _ _ _ (by rw [hg.lenI]; omega)]
      by_cases cv : v = i
      · rw [if_pos cv, if_pos cv]; omega
      · rw [if_neg cv, if_neg cv]
    · rw [if_neg c]
      by_cases cv : v = i
      · rw [if_pos cv, cv]
        show idx s i = _
        omega
      · rw [if_neg cv]
        rfl
  have hlen : ((if idx s i > idx s j then { s with index := s.index.set i (idx s j) } else s).index).length = n + 1 := by
    split
    · simp [hg.lenI]
    · exact hg.lenI
  generalize hs2 : ({ F := F', index := (if idx s i > idx s j then { s with index := s.index.set i (idx s j) } else s).index, vert := s.vert, top := s.top } : St) = s2 at hidx
  have hF2 : s2.F = F' := by rw [← hs2]
  have hI2 : s2.index.length = n + 1 := by rw [← hs2]; exact hlen
  have hV2 : s2.vert = s.vert := by rw [← hs2]
  have hT2 : s2.top = s.top := by rw [← hs2]
  -- min
  have hmin : 1 ≤ min (idx s i) (idx s j) ∧ min (idx s i) (idx s j) ≤ idx s i ∧ (idx s j = n + 2 → min (idx s i) (idx s j) = idx s i) := by
    refine ⟨?_, by omega, by intro h; omega⟩
    rcases hg.nonwhite hj hj0 with h | h
    · have := hg.grey' h; omega
    · omega
  have hne' : ∀ v, idx s2 v = n + 2 ↔ idx s v = n + 2 := by
    intro v
    by_cases cv : v = i
    · subst cv; rw [hidx, if_pos rfl]; omega
    · rw [hidx, if_neg cv]
  have hz : ∀ v, idx s2 v = 0 ↔ idx s v = 0 := by
    intro v
    by_cases cv : v = i
    · subst cv; rw [hidx, if_pos rfl]; omega
    · rw [hidx, if_neg cv]
  have hle : ∀ v, idx s2 v ≤ idx s v := by
    intro v
    rw [hidx]
    by_cases cv : v = i
    · subst cv; rw [if_pos rfl]; omega
    · rw [if_neg cv]
  have hbit : ∀ v k, k / 32 < ts → (Bit s2.F ts v k ↔ Bit s.F ts v k ∨ (v = i ∧ Bit s.F ts j k)) := by rw [hF2]; exact e3
  have hii : idx s2 i = min (idx s i) (idx s j) := by rw [hidx, if_pos rfl]
  have hG : G R n ts F0 s2 (stk ++ i :: rest) := by
    refine ⟨by rw [hF2]; exact e2, hI2, by rw [hV2]; exact hg.lenV, by rw [hT2]; exact hg.top, by rw [hV2]; exact hg.vert, hg.nodup, hg.lt, ?_, ?_, ?_, ?_, ?_, ?_, ?_⟩
    · intro v hv' hn
      rw [hne', hz]
      exact hg.off v hv' hn
    · intro p v hp
      have := hg.grey p v hp
      by_cases cv : v = i
      · subst cv; rw [hii]; omega
      · rw [hidx, if_neg cv]; exact this
    · intro v u hv' hu
      by_cases cv : v = i
      · subst cv
        rw [hii] at hu
        by_cases c : idx s v ≤ idx s j
        · rw [min_eq_left c] at hu
          exact hg.reach v u hv' hu
        · rw [min_eq_right (by omega)] at hu
          have hjs : j ∈ stk ++ v :: rest := by
            rcases hg.nonwhite hj hj0 with h | h
            · exact h
            · omega
          exact (hg.reach j u hjs hu).head hij
      · rw [hidx, if_neg cv] at hu
        exact hg.reach v u hv' hu
    · intro v hv' hb w hw
      rw [hne'] at hb ⊢
      exact hg.closed v hv' hb w hw
    · intro v hv' hb k hk hf
      rw [hne'] at hb
      rw [hbit v k hk]
      exact .inl (hg.final v hv' hb k hk hf)
    · intro v hv' k hk hb
      rcases (hbit v k hk).1 hb with h | ⟨rfl, h⟩
      · exact hg.sound v hv' k hk h
      · exact (Fin_least R F0 ts).2.1 v j k hij (hg.sound j hj k hk h)
    · intro v hv' k hk hb
      rw [hbit v k hk]
      exact .inl (hg.lower v hv' k hk hb)
  refine ⟨?_, hG, ?_, ?_, ?_, ?_⟩
  · intro w hw'
    rcases List.mem_append.1 hw' with h | h
    · exact hdn w h
    · simp only [List.mem_singleton] at h; subst h; exact hij
  · intro v hv' h0
    obtain ⟨a1, a2⟩ := hs v hv' h0
    have cv : v ≠ i := by rintro rfl; exact h0 hs0
    refine ⟨by rw [hidx, if_neg cv, a1], ?_⟩
    intro k hk
    rw [hbit v k hk, a2 k hk]
    simp [cv]
  · intro v hv' h0
    exact hw v hv' ((hz v).1 h0)
  · intro p v hp hm
    exact le_trans (hle v) (hl p v hp hm)
  · have hB : ∀ k, k / 32 < ts → (Bit s2.F ts i k ↔ Bit s.F ts i k ∨ Bit s.F ts j k) := by
      intro k hk; rw [hbit i k hk]; simp
    refine ⟨?_, ?_, ?_, ?_, ?_, ?_⟩
    · intro v hv' w hE
      rw [Ne, hz]
      by_cases cv : v = i
      · simp only [cv, if_true] at hE
        rcases List.mem_append.1 hE with h | h
        · exact hseg.nonwhite v hv' w (by simp only [cv, if_true]; exact h)
        · simp only [List.mem_singleton] at h; subst h; exact hj0
      · simp only [cv, if_false] at hE
        exact hseg.nonwhite v hv' w (by simp only [cv, if_false]; exact hE)
    · intro v hv'
      rw [hii]
      by_cases cv : v = i
      · rw [cv, hii]
      · rw [hidx, if_neg cv]; exact hseg.low v hv'
    · intro v hv' k hk h
      exact (hB k hk).2 (hseg.own v hv' k hk h)
    · intro v hv' w hE hb k hk hf
      rw [hB k hk]
      rw [hne'] at hb
      by_cases cv : v = i
      · simp only [cv, if_true] at hE
        rcases List.mem_append.1 hE with h | h
        · exact hseg.black v hv' w (by simp only [cv, if_true]; exact h) hb k hk hf
        · simp only [List.mem_singleton] at h; subst h
          exact .inr (hg.final w hj hb k hk hf)
      · simp only [cv, if_false] at hE
        exact hseg.black v hv' w (by simp only [cv, if_false]; exact hE) hb k hk hf
    · intro v hv' w hw' hE
      have hwi : w ≠ i := by
        rintro rfl
        have := hg.nodup
        rw [List.nodup_append] at this
        exact this.2.2 w hw' w (by simp) rfl
      rw [hii, hidx w, if_neg hwi]
      by_cases cv : v = i
      · simp only [cv, if_true] at hE
        rcases List.mem_append.1 hE with h | h
        · exact hseg.below v hv' w hw' (by simp only [cv, if_true]; exact h)
        · simp only [List.mem_singleton] at h; subst h
          omega
      · simp only [cv, if_false] at hE
        exact hseg.below v hv' w hw' (by simp only [cv, if_false]; exact hE)
    · exact hseg.conn

/-! ### the loop over the edges -/

/-- the number of vertices not yet visited -/
def whites (n : Nat) (s : St) : Nat := ((List.range n).filter (fun v => idx s v = 0)).length

theorem filter_le (p q : Nat → Bool) (l : List Nat) (h : ∀ v ∈ l, p v = true → q v = true) : (l.filter p).length ≤ (l.filter q).length := by
  induction l with
  | nil => simp
  | cons a l ih =>
    have := ih (fun v hv => h v (by simp [hv]))
    by_cases c : p a = true
    · have c2 := h a (by simp) c
      rw [List.filter_cons_of_pos c, List.filter_cons_of_pos c2]
      simp; exact this
    · rw [List.filter_cons_of_neg c]
      by_cases c2 : q a = true
      · rw [List.filter_cons_of_pos c2]; simp; omega
      · rw [List.filter_cons_of_neg c2]; exact this

theorem filter_lt (p q : Nat → Bool) (l : List Nat) (h : ∀ v ∈ l, p v = true → q v = true) (i : Nat) (hi : i ∈ l) (h1 : p i = false) (h2 : q i = true) :
    (l.filter p).length < (l.filter q).length := by
  induction l with
  | nil => cases hi
  | cons a l ih =>
    have hle := filter_le p q l (fun v hv => h v (by simp [hv]))
    by_cases c : a = i
    · subst c
      rw [List.filter_cons_of_neg (by simp [h1]), List.filter_cons_of_pos h2]
      simp; omega
    · have := ih (fun v hv => h v (by simp [hv])) (by rcases List.mem_cons.1 hi with h | h; exact absurd h.symm c; exact h)
      by_cases cp : p a = true
      · rw [List.filter_cons_of_pos cp, List.filter_cons_of_pos (h a (by simp) cp)]
        simp; exact this
      · rw [List.filter_cons_of_neg cp]
        by_cases c2 : q a = true
        · rw [List.filter_cons_of_pos c2]; simp; omega
        · rw [List.filter_cons_of_neg c2]; exact this

theorem whites_le {s s' : St} (h : ∀ v, v < n → idx s' v = 0 → idx s v = 0) : whites n s' ≤ whites n s := by
  apply filter_le
  intro v hv hp
  simp only [decide_eq_true_eq] at *
  exact h v (List.mem_range.1 hv) hp

theorem whites_lt {s s' : St} (h : ∀ v, v < n → idx s' v = 0 → idx s v = 0) {i : Nat} (hi : i < n) (h1 : idx s' i ≠ 0) (h2 : idx s i = 0) : whites n s' < whites n s := by
  apply filter_lt _ _ _ _ i (List.mem_range.2 hi)
  · simpa using h1
  · simpa using h2
  · intro v hv hp
    simp only [decide_eq_true_eq] at *
    exact h v (List.mem_range.1 hv) hp

/-- `rec` is `traverse`, for as many vertices not visited -/
def RecOk (R : List (Option (List Nat))) (n ts : Nat) (F0 : Mem) (fuel : Nat) (rec : Nat → St → Option St) : Prop :=
  ∀ i s stk, i < n → G R n ts F0 s stk → idx s i = 0 → whites n s ≤ fuel → ∃ s', rec i s = some s' ∧ Post R n ts F0 s stk i s'

theorem left_append {s s1 : St} {stk rest new : List Nat} {i : Nat} (h : Left s (stk ++ i :: rest) (stk.length + 1))
    (h1 : Left s1 ((stk ++ i :: rest) ++ new) (stk ++ i :: rest).length) (hs : ∀ v ∈ stk ++ i :: rest, idx s1 v = idx s v) :
    Left s1 (stk ++ i :: (rest ++ new)) (stk.length + 1) := by
  intro p v hp hm
  have e : stk ++ i :: (rest ++ new) = (stk ++ i :: rest) ++ new := by simp
  rw [e] at hp
  by_cases c : p < (stk ++ i :: rest).length
  · rw [List.getElem?_append_left c] at hp
    rw [hs v (List.mem_of_getElem? hp)]
    exact h p v hp hm
  · exact h1 p v hp (by omega)

theorem edge_step (hv : Valid R n) {fuel : Nat} {rec : Nat → St → Option St} (hrec : RecOk R n ts F0 fuel rec) {s0 s : St} {stk : List Nat} {i j : Nat} {dn rest : List Nat}
    (hij : Succ R i j) (hi : i < n) (hs0 : idx s0 i = 0) (hl : Loop R n ts F0 s0 stk i dn rest s) (hw : whites n s ≤ fuel) (rp : List Nat) :
    ∃ s' rest', edgeLoop rec ts i (j :: rp) s = edgeLoop rec ts i rp s' ∧ Loop R n ts F0 s0 stk i (dn ++ [j]) rest' s' ∧ whites n s' ≤ fuel := by
  have hj : j < n := hv.lt i j hij
  have hmem : i ∈ stk ++ i :: rest := by simp
  -- the call
  have call : ∃ s1 rest1, (if idx s j = 0 then rec j s else some s : Option St) = some s1 ∧ G R n ts F0 s1 (stk ++ i :: rest1) ∧ Same n ts s0 s1 ∧
      (∀ v, v < n → idx s1 v = 0 → idx s v = 0) ∧
      Left s1 (stk ++ i :: rest1) (stk.length + 1) ∧ idx s1 j ≠ 0 ∧
      Seg R n ts F0 s1 stk i (fun v w => if v = i then w ∈ dn else Succ R v w) (i :: rest1) (min (idx s1 i) (idx s1 j)) (fun k => Bit s1.F ts i k ∨ Bit s1.F ts j k) := by
    by_cases c : idx s j = 0
    · rw [if_pos c]
      obtain ⟨s1, e1, e2, e3, e4⟩ := hrec j s _ hj hl.g c hw
      -- what the old part of the stack gives
      have hold : ∀ v ∈ stk ++ i :: rest, idx s1 v = idx s v := by
        intro v hvm
        exact (e2 v (hl.g.lt v hvm) (by have := hl.g.grey' hvm; omega)).1
      have hnz : ∀ w, w < n → idx s w ≠ 0 → idx s1 w = idx s w := fun w hw' h0 => (e2 w hw' h0).1
      have hBi : ∀ k, k / 32 < ts → (Bit s1.F ts i k ↔ Bit s.F ts i k) := (e2 i hi (by have := hl.g.grey' hmem; omega)).2
      have hEs : ∀ v w, (if v = i then w ∈ dn else Succ R v w) → Succ R v w := by
        intro v w hE
        by_cases cv : v = i
        · simp only [cv, if_true] at hE; rw [cv]; exact hl.dnSucc w hE
        · simpa only [cv, if_false] using hE
      have hEn : ∀ v w, (if v = i then w ∈ dn else Succ R v w) → w < n := fun v w hE => hv.lt v w (hEs v w hE)
      -- the vertices of before
      have hsegOld : ∀ B lo, (∀ k, k / 32 < ts → Bit s1.F ts i k → B k) → lo ≤ idx s1 i →
          Seg R n ts F0 s1 stk i (fun v w => if v = i then w ∈ dn else Succ R v w) (i :: rest) lo B := by
        intro B lo hB hlo
        have hlo' : lo ≤ idx s i := by rw [← hold i hmem]; exact hlo
        refine ⟨?_, ?_, ?_, ?_, ?_, hl.seg.conn⟩
        · intro v hvm w hE
          have := hl.seg.nonwhite v hvm w hE
          rw [hnz w (hEn v w hE) this]; exact this
        · intro v hvm
          rw [hold v (List.mem_append_right _ hvm)]
          exact le_trans hlo' (hl.seg.low v hvm)
        · intro v hvm k hk hb
          exact hB k hk ((hBi k hk).2 (hl.seg.own v hvm k hk hb))
        · intro v hvm w hE hb k hk hf
          have hnw := hl.seg.nonwhite v hvm w hE
          rw [hnz w (hEn v w hE) hnw] at hb
          exact hB k hk ((hBi k hk).2 (hl.seg.black v hvm w hE hb k hk hf))
        · intro v hvm w hws hE
          rw [hold w (List.mem_append_left _ hws)]
          exact le_trans hlo' (hl.seg.below v hvm w hws hE)
      rcases e4 with ⟨hjb, hg1⟩ | ⟨new, hg1, hleft, hsg⟩
      · refine ⟨s1, rest, e1, hg1, hl.same.trans e2, e3, ?_, by omega, ?_⟩
        · intro p v hp hm
          rw [hold v (List.mem_of_getElem? hp)]
          exact hl.left p v hp hm
        · exact hsegOld _ _ (fun k _ h => .inl h) (min_le_left _ _)
      · have hjm : j ∈ (stk ++ i :: rest) ++ j :: new := by simp
        have ea : (stk ++ i :: rest) ++ j :: new = stk ++ i :: (rest ++ j :: new) := by simp
        refine ⟨s1, rest ++ j :: new, e1, by rw [← ea]; exact hg1, hl.same.trans e2, e3, left_append hl.left hleft hold, by have := hg1.grey' hjm; omega, ?_⟩
        have old := hsegOld (fun k => Bit s1.F ts i k ∨ Bit s1.F ts j k) (min (idx s1 i) (idx s1 j)) (fun k _ h => .inl h) (min_le_left _ _)
        have hni : ∀ v ∈ j :: new, v ≠ i := by
          rintro v hvm rfl
          have := hg1.nodup
          rw [List.nodup_append] at this
          exact this.2.2 v hmem v hvm rfl
        have hsplit : ∀ v ∈ i :: (rest ++ j :: new), v ∈ i :: rest ∨ v ∈ j :: new := by
          intro v hvm
          rw [← List.cons_append] at hvm
          exact List.mem_append.1 hvm
        refine ⟨?_, ?_, ?_, ?_, ?_, ?_⟩
        · intro v hvm w hE
          rcases hsplit v hvm with h | h
          · exact old.nonwhite v h w hE
          · exact hsg.nonwhite v h w (hEs v w hE)
        · intro v hvm
          rcases hsplit v hvm with h | h
          · exact old.low v h
          · exact le_trans (min_le_right _ _) (hsg.low v h)
        · intro v hvm k hk hb
          rcases hsplit v hvm with h | h
          · exact old.own v h k hk hb
          · exact .inr (hsg.own v h k hk hb)
        · intro v hvm w hE hb k hk hf
          rcases hsplit v hvm with h | h
          · exact old.black v h w hE hb k hk hf
          · exact .inr (hsg.black v h w (hEs v w hE) hb k hk hf)
        · intro v hvm w hws hE
          rcases hsplit v hvm with h | h
          · exact old.below v h w hws hE
          · exact le_trans (min_le_right _ _) (hsg.below v h w (List.mem_append_left _ hws) (hEs v w hE))
        · intro v hvm
          rcases hsplit v hvm with h | h
          · exact old.conn v h
          · exact (hsg.conn v h).head hij
    · rw [if_neg c]
      refine ⟨s, rest, rfl, hl.g, hl.same, fun _ _ h => h, hl.left, c, ?_⟩
      exact ⟨hl.seg.nonwhite, fun v h => le_trans (min_le_left _ _) (hl.seg.low v h), fun v h k hk hb => .inl (hl.seg.own v h k hk hb),
        fun v h w hE hb k hk hf => .inl (hl.seg.black v h w hE hb k hk hf), fun v h w hw' hE => le_trans (min_le_left _ _) (hl.seg.below v h w hw' hE), hl.seg.conn⟩
  obtain ⟨s1, rest1, e1, e2, e3, e4, e5, e6, e7⟩ := call
  obtain ⟨F', f1, f2⟩ := merge_step hv hij hl.dnSucc hi e2 e3 hs0 (fun v hv' h => hl.white v hv' (e4 v hv' h)) e5 e6 e7
  have hmem1 : i ∈ stk ++ i :: rest1 := by simp
  refine ⟨_, rest1, ?_, f2, ?_⟩
  · rw [edgeLoop]
    show Option.bind _ _ = _
    rw [hl.g.get hj, Option.bind_some]
    show Option.bind _ _ = _
    rw [e1, Option.bind_some]
    show Option.bind _ _ = _
    rw [e2.get hi, Option.bind_some]
    show Option.bind _ _ = _
    rw [e2.get hj, Option.bind_some]
    dsimp only
    have : (if idx s1 i > idx s1 j then { s1 with index := s1.index.set i (idx s1 j) } else s1 : St).F = s1.F := by split <;> rfl
    rw [this]
    show Option.bind _ _ = _
    rw [f1, Option.bind_some]
    congr 1
    split <;> rfl
  · have hsame := f2.same
    refine le_trans (whites_le (s := s) ?_) hw
    intro v hv' h0
    apply e4 v hv'
    have := f2.white
    by_cases cv : v = i
    · subst cv
      have := f2.g.grey' hmem1
      omega
    · by_cases c : idx s1 i > idx s1 j
      · rw [if_pos c] at h0
        dsimp only at h0
        rw [idx_set _ _ _ (by rw [e2.lenI]; omega), if_neg cv] at h0
        exact h0
      · rw [if_neg c] at h0
        exact h0


theorem edgeLoop_spec (hv : Valid R n) {fuel : Nat} {rec : Nat → St → Option St} (hrec : RecOk R n ts F0 fuel rec) {s0 : St} {stk : List Nat} {i : Nat} (hi : i < n)
    (hs0 : idx s0 i = 0) (rp : List Nat) : ∀ (dn rest : List Nat) (s : St), (∀ j ∈ rp, Succ R i j) → Loop R n ts F0 s0 stk i dn rest s → whites n s ≤ fuel →
    ∃ s' rest', edgeLoop rec ts i rp s = some s' ∧ Loop R n ts F0 s0 stk i (dn ++ rp) rest' s' := by
  induction rp with
  | nil => intro dn rest s _ hl _; exact ⟨s, rest, rfl, by simpa using hl⟩
  | cons j rp ih =>
    intro dn rest s hs hl hw
    obtain ⟨s1, rest1, e1, e2, e3⟩ := edge_step hv hrec (hs j (by simp)) hi hs0 hl hw rp
    obtain ⟨s', rest', f1, f2⟩ := ih (dn ++ [j]) rest1 s1 (fun j' h => hs j' (by simp [h])) e2 e3
    exact ⟨s', rest', by rw [e1, f1], by simpa using f2⟩

/-! ### popping -/

theorem popLoop_spec (hnn : 0 < n + 1) (inf : Int) (i : Nat) (stk : List Nat) (hi : i < n) (d : Nat) : ∀ (rest : List Nat) (s : St), rest.length = d → (stk ++ i :: rest).Nodup → (∀ v ∈ rest, v < n) →
    s.F.length = n * ts → s.index.length = n + 1 → (∀ (p : Nat) v, (stk ++ i :: rest)[p]? = some v → s.vert[p + 1]? = some v) →
    ∃ s', popLoop ts inf i (stk ++ i :: rest).length s = some s' ∧ s'.top = stk.length ∧ s'.vert = s.vert ∧ s'.index.length = n + 1 ∧ s'.F.length = n * ts ∧
      (∀ v, idx s' v = if v ∈ i :: rest then inf else idx s v) ∧ (∀ v k, k / 32 < ts → (Bit s'.F ts v k ↔ if v ∈ rest then Bit s.F ts i k else Bit s.F ts v k)) := by
  induction d with
  | zero =>
    intro rest s hd hn hlt hF hI hV
    have : rest = [] := List.eq_nil_of_length_eq_zero hd
    subst this
    have hlen : (stk ++ [i]).length = stk.length + 1 := by simp
    have hv := hV stk.length i (by simp)
    refine ⟨{ s with index := s.index.set i inf, top := stk.length }, ?_, rfl, rfl, by simp [hI], hF, ?_, ?_⟩
    · rw [hlen, popLoop, hv]
      dsimp only
      rw [if_pos (by omega), if_pos rfl]
    · intro v
      rw [idx_set _ _ _ (by omega)]
      simp
    · intro v k hk; simp
  | succ d ih =>
    intro rest s hd hn hlt hF hI hV
    obtain ⟨rest0, j, rfl⟩ : ∃ r0 j, rest = r0 ++ [j] := by
      rcases List.eq_nil_or_concat rest with h | ⟨r0, j, h⟩
      · subst h; simp at hd
      · exact ⟨r0, j, by simpa using h⟩
    have ea : stk ++ i :: (rest0 ++ [j]) = (stk ++ i :: rest0) ++ [j] := by simp
    rw [ea] at hn hV ⊢
    have hlen : ((stk ++ i :: rest0) ++ [j]).length = (stk ++ i :: rest0).length + 1 := by rw [List.length_append, List.length_singleton]
    have hv := hV (stk ++ i :: rest0).length j (by rw [List.getElem?_append_right (le_refl _)]; simp)
    have hjn := hlt j (by simp)
    have hnd := List.nodup_append.1 hn
    have hij : i ≠ j := fun h => hnd.2.2 i (by simp) j (by simp) h
    have hjr : j ∉ rest0 := fun h => hnd.2.2 j (by simp [h]) j (by simp) rfl
    obtain ⟨F', e1, e2, e3⟩ := copyRow s.F hF hi hjn hij
    obtain ⟨s', f1, f2, f3, f4, f5, f6, f7⟩ := ih rest0 { s with F := F', index := s.index.set j inf, top := (stk ++ i :: rest0).length } (by simp at hd; omega) hnd.1
      (fun v h => hlt v (by simp [h])) e2 (by simp [hI])
      (by
        intro p v hp
        refine hV p v ?_
        rw [List.getElem?_append_left]
        · exact hp
        · exact (List.getElem?_eq_some_iff.1 hp).1)
    refine ⟨s', ?_, f2, f3, f4, f5, ?_, ?_⟩
    · rw [hlen, popLoop, hv]
      dsimp only
      rw [if_pos (by omega), if_neg hij, e1]
      exact f1
    · intro v
      rw [f6, idx_set _ _ _ (by omega)]
      by_cases c1 : v ∈ i :: rest0
      · rw [if_pos c1, if_pos (by rw [← List.cons_append]; exact List.mem_append_left _ c1)]
      · rw [if_neg c1]
        by_cases c2 : v = j
        · subst c2; rw [if_pos rfl, if_pos (by simp)]
        · rw [if_neg c2, if_neg]
          rw [← List.cons_append, List.mem_append]
          rintro (h | h)
          · exact c1 h
          · exact c2 (by simpa using h)
    · intro v k hk
      rw [f7 v k hk]
      dsimp only
      rw [e3 i k hk, e3 v k hk, if_neg hij]
      by_cases c1 : v ∈ rest0
      · rw [if_pos c1, if_pos (by simp [c1])]
      · rw [if_neg c1]
        by_cases c2 : v = j
        · subst c2; rw [if_pos rfl, if_pos (by simp)]
        · rw [if_neg c2, if_neg (by rw [List.mem_append, List.mem_singleton]; tauto)]

/-- when the index of `i` is its position, the vertices from `i` are a strongly connected component, and its set is known -/
theorem component (hv : Valid R n) {s0 s : St} {stk : List Nat} {i : Nat} {dn rest : List Nat} (hi : i < n) (hl : Loop R n ts F0 s0 stk i dn rest s) (hdn : ∀ w, Succ R i w → w ∈ dn)
    (hh : idx s i = stk.length + 1) :
    (∀ v ∈ i :: rest, ∀ w, Succ R v w → w ∈ i :: rest ∨ idx s w = n + 2) ∧ (∀ v ∈ i :: rest, Reach R v i) ∧
    ∀ k, k / 32 < ts → (Bit s.F ts i k ↔ Fin R F0 ts i k) := by
  have hE : ∀ v w, Succ R v w → (if v = i then w ∈ dn else Succ R v w) := by
    intro v w h
    by_cases cv : v = i
    · simp only [cv, if_true]; rw [cv] at h; exact hdn w h
    · simp only [cv, if_false]; exact h
  have h1 : ∀ v ∈ i :: rest, ∀ w, Succ R v w → w ∈ i :: rest ∨ idx s w = n + 2 := by
    intro v hvm w hw
    have h0 := hl.seg.nonwhite v hvm w (hE v w hw)
    rcases hl.g.nonwhite (hv.lt v w hw) h0 with h | h
    · rcases List.mem_append.1 h with h | h
      · exfalso
        have hb := hl.seg.below v hvm w h (hE v w hw)
        obtain ⟨p, hp, rfl⟩ := List.mem_iff_getElem.1 h
        have := (hl.g.grey p stk[p] (by rw [List.getElem?_append_left hp]; exact List.getElem?_eq_getElem hp)).2
        omega
      · exact .inl h
    · exact .inr h
  refine ⟨h1, ?_, ?_⟩
  · have key : ∀ (m p : Nat) v, p < m → (stk ++ i :: rest)[p]? = some v → stk.length ≤ p → Reach R v i := by
      intro m
      induction m with
      | zero => intro p v h; omega
      | succ m ih =>
        intro p v hpm hp hge
        by_cases c : p = stk.length
        · subst c
          simp at hp
          subst hp
          exact .refl
        · have hvr : v ∈ i :: rest := by
            rw [List.getElem?_append_right hge] at hp
            exact List.mem_of_getElem? hp
          have hlow := hl.seg.low v hvr
          have hup := hl.left p v hp (by omega)
          have hplt := (List.getElem?_eq_some_iff.1 hp).1
          have hq : (idx s v).toNat - 1 < (stk ++ i :: rest).length := by omega
          have hu := List.getElem?_eq_getElem hq
          have r1 := hl.g.reach v _ (List.mem_of_getElem? hp) hu
          have r2 := ih _ _ (by omega) hu (by omega)
          exact r1.trans r2
    intro v hvm
    obtain ⟨p, hp, e⟩ := List.mem_iff_getElem.1 hvm
    refine key (stk.length + p + 1) (stk.length + p) v (by omega) ?_ (by omega)
    rw [List.getElem?_append_right (by omega)]
    rw [show stk.length + p - stk.length = p by omega, List.getElem?_eq_getElem hp, e]
  · intro k hk
    constructor
    · exact hl.g.sound i hi k hk
    · rintro ⟨w, hr, hb⟩
      have : ∀ v, Reach R v w → v ∈ i :: rest → Bit s.F ts i k := by
        intro v hvw
        induction hvw using Relation.ReflTransGen.head_induction_on with
        | refl => intro hm; exact hl.seg.own _ hm k hk hb
        | head a b ih =>
          rename_i v u
          intro hm
          rcases h1 v hm u a with h | h
          · exact ih h
          · exact hl.seg.black v hm u (hE v u a) h k hk ⟨w, b, hb⟩
      exact this i hr (by simp)

theorem finish (hv : Valid R n) {s0 s : St} {stk : List Nat} {i : Nat} {dn rest : List Nat} (hi : i < n) (hl : Loop R n ts F0 s0 stk i dn rest s) (hg0 : G R n ts F0 s0 stk)
    (hdn : ∀ w, Succ R i w → w ∈ dn) :
    ∃ s', (if idx s i = stk.length + 1 then popLoop ts (n + 2) i s.top s else some s : Option St) = some s' ∧ Post R n ts F0 s0 stk i s' := by
  have hE : ∀ v w, Succ R v w → (if v = i then w ∈ dn else Succ R v w) := by
    intro v w h
    by_cases cv : v = i
    · simp only [cv, if_true]; rw [cv] at h; exact hdn w h
    · simp only [cv, if_false]; exact h
  by_cases c : idx s i = stk.length + 1
  · rw [if_pos c]
    obtain ⟨c1, c2, c3⟩ := component hv hi hl hdn c
    have hltr : ∀ v ∈ i :: rest, v < n := fun v h => hl.g.lt v (List.mem_append_right _ h)
    obtain ⟨s', e1, e2, e3, e4, e5, e6, e7⟩ := popLoop_spec (ts := ts) (n := n) (by omega) (n + 2) i stk hi rest.length rest s rfl hl.g.nodup (fun v h => hltr v (by simp [h])) hl.g.lenF hl.g.lenI hl.g.vert
    rw [← hl.g.top] at e1
    refine ⟨s', e1, ?_, ?_, .inl ⟨?_, ?_⟩⟩
    · intro v hvn h0
      obtain ⟨a1, a2⟩ := hl.same v hvn h0
      have hnm : v ∉ i :: rest := by
        intro hm
        rcases hg0.nonwhite hvn h0 with h | h
        · have := List.nodup_append.1 hl.g.nodup
          exact this.2.2 v h v hm rfl
        · have := hl.g.grey' (List.mem_append_right _ hm)
          omega
      refine ⟨by rw [e6, if_neg hnm, a1], ?_⟩
      intro k hk
      rw [e7 v k hk, if_neg (fun h => hnm (by simp [h])), a2 k hk]
    · intro v hvn h0
      rw [e6] at h0
      by_cases cm : v ∈ i :: rest
      · rw [if_pos cm] at h0; omega
      · rw [if_neg cm] at h0; exact hl.white v hvn h0
    · rw [e6, if_pos (by simp)]
    · have hdisj : ∀ v ∈ stk, v ∉ i :: rest := fun v h1 h2 => (List.nodup_append.1 hl.g.nodup).2.2 v h1 v h2 rfl
      have hidx : ∀ v ∈ stk, idx s' v = idx s v := fun v h => by rw [e6, if_neg (hdisj v h)]
      have hsub : ∀ (p : Nat) v, stk[p]? = some v → (stk ++ i :: rest)[p]? = some v := by
        intro p v h
        rw [List.getElem?_append_left (List.getElem?_eq_some_iff.1 h).1]; exact h
      have hblk : ∀ v, idx s v = n + 2 → idx s' v = n + 2 := by
        intro v h
        rw [e6]
        split
        · rfl
        · exact h
      refine ⟨e5, e4, by rw [e3]; exact hl.g.lenV, e2, ?_, (List.nodup_append.1 hl.g.nodup).1, fun v h => hl.g.lt v (List.mem_append_left _ h), ?_, ?_, ?_, ?_, ?_, ?_, ?_⟩
      · intro p v hp
        rw [e3]
        exact hl.g.vert p v (hsub p v hp)
      · intro v hvn hns
        rw [e6]
        by_cases cm : v ∈ i :: rest
        · rw [if_pos cm]; exact .inr rfl
        · rw [if_neg cm]
          exact hl.g.off v hvn (by rw [List.mem_append]; tauto)
      · intro p v hp
        rw [hidx v (List.mem_of_getElem? hp)]
        exact hl.g.grey p v (hsub p v hp)
      · intro v u hm hu
        rw [hidx v hm] at hu
        exact hl.g.reach v u (List.mem_append_left _ hm) (hsub _ _ hu)
      · intro v hvn hb w hw
        by_cases cm : v ∈ i :: rest
        · rcases c1 v cm w hw with h | h
          · rw [e6, if_pos h]
          · exact hblk w h
        · rw [e6, if_neg cm] at hb
          exact hblk w (hl.g.closed v hvn hb w hw)
      · intro v hvn hb k hk hf
        rw [e7 v k hk]
        by_cases cm : v ∈ i :: rest
        · have hfi : Fin R F0 ts i k := by
            obtain ⟨w, h1, h2⟩ := hf
            exact ⟨w, (hl.seg.conn v cm).trans h1, h2⟩
          have := (c3 k hk).2 hfi
          by_cases cr : v ∈ rest
          · rw [if_pos cr]; exact this
          · rw [if_neg cr]
            rcases List.mem_cons.1 cm with h | h
            · rw [h]; exact this
            · exact absurd h cr
        · rw [if_neg (fun h => cm (by simp [h]))]
          rw [e6, if_neg cm] at hb
          exact hl.g.final v hvn hb k hk hf
      · intro v hvn k hk hb
        rw [e7 v k hk] at hb
        by_cases cr : v ∈ rest
        · rw [if_pos cr] at hb
          obtain ⟨w, h1, h2⟩ := hl.g.sound i hi k hk hb
          exact ⟨w, (c2 v (by simp [cr])).trans h1, h2⟩
        · rw [if_neg cr] at hb
          exact hl.g.sound v hvn k hk hb
      · intro v hvn k hk hb
        rw [e7 v k hk]
        by_cases cr : v ∈ rest
        · rw [if_pos cr]
          exact hl.seg.own v (by simp [cr]) k hk hb
        · rw [if_neg cr]
          exact hl.g.lower v hvn k hk hb
  · rw [if_neg c]
    refine ⟨s, rfl, hl.same, hl.white, .inr ⟨rest, hl.g, ?_, ?_⟩⟩
    · intro p v hp hm
      by_cases cp : p = stk.length
      · subst cp
        have := (hl.g.grey _ _ hp).2
        simp at hp
        subst hp
        omega
      · exact hl.left p v hp (by omega)
    · exact ⟨fun v h w hw => hl.seg.nonwhite v h w (hE v w hw), hl.seg.low, hl.seg.own, fun v h w hw => hl.seg.black v h w (hE v w hw),
        fun v h w hws hw => hl.seg.below v h w hws (hE v w hw), hl.seg.conn⟩

/-! ### traverse -/

theorem short_id {x : Int} (h1 : -32768 ≤ x) (h2 : x ≤ 32767) : short x = x := by
  unfold short
  rw [Int.emod_eq_of_lt (by omega) (by omega)]
  omega

theorem push_loop {s : St} {stk : List Nat} {i : Nat} (hi : i < n) (hg : G R n ts F0 s stk) (h0 : idx s i = 0) :
    Loop R n ts F0 s stk i [] [] { s with vert := s.vert.set (s.top + 1) i, index := s.index.set i ((s.top : Int) + 1), top := s.top + 1 } := by
  have hin : i ∉ stk := by
    intro h
    have := hg.grey' h
    omega
  have hnd : (stk ++ [i]).Nodup := by
    rw [List.nodup_append]
    refine ⟨hg.nodup, by simp, ?_⟩
    intro a ha b hb
    simp only [List.mem_singleton] at hb
    subst hb
    rintro rfl
    exact hin ha
  have hlt : ∀ v ∈ stk ++ [i], v < n := by
    intro v hv
    rcases List.mem_append.1 hv with h | h
    · exact hg.lt v h
    · simp only [List.mem_singleton] at h; subst h; exact hi
  have hlen := nodup_length hnd hlt
  rw [List.length_append, List.length_singleton] at hlen
  have hidx : ∀ v, idx { s with vert := s.vert.set (s.top + 1) i, index := s.index.set i ((s.top : Int) + 1), top := s.top + 1 } v = if v = i then (stk.length : Int) + 1 else idx s v := by
    intro v
    rw [idx_set _ _ _ (by rw [hg.lenI]; omega), hg.top]
  generalize hs2 : ({ s with vert := s.vert.set (s.top + 1) i, index := s.index.set i ((s.top : Int) + 1), top := s.top + 1 } : St) = s2 at hidx
  have hF2 : s2.F = s.F := by rw [← hs2]
  have hi2 : idx s2 i = (stk.length : Int) + 1 := by rw [hidx, if_pos rfl]
  have hstk : ∀ v ∈ stk, idx s2 v = idx s v := by
    intro v hv
    rw [hidx, if_neg (by rintro rfl; exact hin hv)]
  have hblk : ∀ v, idx s2 v = n + 2 ↔ idx s v = n + 2 := by
    intro v
    rw [hidx]
    by_cases c : v = i
    · subst c; rw [if_pos rfl]; omega
    · rw [if_neg c]
  have hG : G R n ts F0 s2 (stk ++ [i]) := by
    refine ⟨by rw [hF2]; exact hg.lenF, by rw [← hs2]; simp [hg.lenI], by rw [← hs2]; simp [hg.lenV], by rw [← hs2]; simp [hg.top], ?_, hnd, hlt, ?_, ?_, ?_, ?_, ?_, ?_, ?_⟩
    · intro p v hp
      rw [← hs2]
      dsimp only
      by_cases c : p < stk.length
      · rw [List.getElem?_append_left c] at hp
        rw [List.getElem?_set_ne (by rw [hg.top]; omega)]
        exact hg.vert p v hp
      · have hpl := (List.getElem?_eq_some_iff.1 hp).1
        rw [List.length_append, List.length_singleton] at hpl
        have : p = stk.length := by omega
        subst this
        simp at hp
        subst hp
        rw [hg.top, List.getElem?_set_self (by rw [hg.lenV]; omega)]
    · intro v hv hn
      rw [List.mem_append, List.mem_singleton] at hn
      rw [hidx, if_neg (by tauto)]
      exact hg.off v hv (by tauto)
    · intro p v hp
      by_cases c : p < stk.length
      · rw [List.getElem?_append_left c] at hp
        rw [hstk v (List.mem_of_getElem? hp)]
        exact hg.grey p v hp
      · have hpl := (List.getElem?_eq_some_iff.1 hp).1
        rw [List.length_append, List.length_singleton] at hpl
        have : p = stk.length := by omega
        subst this
        simp at hp
        subst hp
        rw [hi2]; omega
    · intro v u hv hu
      rcases List.mem_append.1 hv with h | h
      · rw [hstk v h] at hu
        have := hg.grey' h
        rw [List.getElem?_append_left (by omega)] at hu
        exact hg.reach v u h hu
      · simp only [List.mem_singleton] at h
        subst h
        rw [hi2] at hu
        have : ((stk.length : Int) + 1).toNat - 1 = stk.length := by omega
        rw [this] at hu
        simp at hu
        subst hu
        exact .refl
    · intro v hv hb w hw
      rw [hblk] at hb ⊢
      exact hg.closed v hv hb w hw
    · intro v hv hb
      rw [hF2]
      exact hg.final v hv ((hblk v).1 hb)
    · rw [hF2]; exact hg.sound
    · rw [hF2]; exact hg.lower
  refine ⟨by simp, hG, ?_, ?_, ?_, ?_⟩
  · intro v hv h
    have : v ≠ i := by rintro rfl; exact h h0
    exact ⟨by rw [hidx, if_neg this], by rw [hF2]; simp⟩
  · intro v hv h
    rw [hidx] at h
    by_cases c : v = i
    · rw [c]; exact h0
    · rw [if_neg c] at h; exact h
  · intro p v hp hm
    have hpl := (List.getElem?_eq_some_iff.1 hp).1
    rw [List.length_append, List.length_singleton] at hpl
    omega
  · refine ⟨?_, ?_, ?_, ?_, ?_, ?_⟩
    · intro v hv w hE
      simp only [List.mem_singleton] at hv
      subst hv
      simp at hE
    · intro v hv
      simp only [List.mem_singleton] at hv
      rw [hv]
    · intro v hv k hk hb
      simp only [List.mem_singleton] at hv
      subst hv
      exact hG.lower v hi k hk hb
    · intro v hv w hE
      simp only [List.mem_singleton] at hv
      subst hv
      simp at hE
    · intro v hv w _ hE
      simp only [List.mem_singleton] at hv
      subst hv
      simp at hE
    · intro v hv
      simp only [List.mem_singleton] at hv
      rw [hv]

theorem traverse_spec (hv : Valid R n) (hn : n + 2 ≤ 32767) (fuel : Nat) : RecOk R n ts F0 fuel (traverse R ts (n + 2) fuel) := by
  induction fuel with
  | zero =>
    intro i s stk hi hg h0 hw
    exfalso
    have hm : i ∈ (List.range n).filter (fun v => idx s v = 0) := by
      simp [hi, h0]
    have := List.length_pos_of_mem hm
    unfold whites at hw
    omega
  | succ fuel ih =>
    intro i s stk hi hg h0 hw
    have hl := push_loop hi hg h0
    have hlen := nodup_length hl.g.nodup hl.g.lt
    rw [List.length_append, List.length_singleton] at hlen
    have hii : idx { s with vert := s.vert.set (s.top + 1) i, index := s.index.set i ((s.top : Int) + 1), top := s.top + 1 } i ≠ 0 := by
      have := hl.g.grey' (v := i) (by simp)
      omega
    have hw1 := whites_lt hl.white hi hii h0
    have hsh : short ((s.top + 1 : Nat) : Int) = (s.top : Int) + 1 := by
      rw [short_id (by omega) (by rw [hg.top]; push_cast; omega)]; push_cast; rfl
    have hsi : short ((n : Int) + 2) = n + 2 := short_id (by omega) (by omega)
    have hRi : i < R.length := by rw [hv.len]; exact hi
    rw [traverse]
    dsimp only
    rw [if_pos ⟨by rw [hg.lenV, hg.top]; omega, by rw [hg.lenI]; omega⟩, hsh, hsi]
    rw [List.getElem?_eq_getElem hRi]
    show ∃ s', Option.bind _ _ = _ ∧ _
    rw [Option.bind_some]
    have main : ∃ s1 dn rest, edges (traverse R ts (n + 2) fuel) ts i R[i] { s with vert := s.vert.set (s.top + 1) i, index := s.index.set i ((s.top : Int) + 1), top := s.top + 1 } = some s1 ∧
        Loop R n ts F0 s stk i dn rest s1 ∧ ∀ w, Succ R i w → w ∈ dn := by
      cases hR : R[i] with
      | none =>
        refine ⟨_, [], [], rfl, hl, ?_⟩
        rintro w ⟨l, h1, h2⟩
        rw [List.getElem?_eq_getElem hRi, hR] at h1
        cases h1
      | some rp =>
        have hrow : R[i]? = some (some rp) := by rw [List.getElem?_eq_getElem hRi, hR]
        obtain ⟨s1, rest, e1, e2⟩ := edgeLoop_spec hv ih hi h0 rp [] [] _ (fun j hj => ⟨rp, hrow, hj⟩) hl (by omega)
        refine ⟨s1, rp, rest, e1, by simpa using e2, ?_⟩
        rintro w ⟨l, h1, h2⟩
        rw [hrow] at h1
        cases h1
        exact h2
    obtain ⟨s1, dn, rest, e1, e2, e3⟩ := main
    show ∃ s', Option.bind _ _ = _ ∧ _
    rw [e1, Option.bind_some]
    show ∃ s', Option.bind _ _ = _ ∧ _
    rw [e2.g.get hi, Option.bind_some]
    have := finish hv hi e2 hg e3
    rw [hg.top]
    push_cast
    exact this

theorem mainLoop_spec (hv : Valid R n) (hn : n + 2 ≤ 32767) (d : Nat) : ∀ (i : Nat) (s : St), i + d = n → G R n ts F0 s [] →
    (∀ v, v < i → idx s v ≠ 0 ∨ R[v]? = some none) →
    ∃ s', mainLoop R ts (n + 2) n d i s = some s' ∧ G R n ts F0 s' [] ∧ ∀ v, v < n → idx s' v ≠ 0 ∨ R[v]? = some none := by
  induction d with
  | zero =>
    intro i s hi hg hd
    exact ⟨s, rfl, hg, fun v hv' => hd v (by omega)⟩
  | succ d ih =>
    intro i s hi hg hd
    have hin : i < n := by omega
    have hRi : i < R.length := by rw [hv.len]; exact hin
    rw [mainLoop]
    show ∃ s', Option.bind _ _ = _ ∧ _
    rw [hg.get hin, Option.bind_some]
    show ∃ s', Option.bind _ _ = _ ∧ _
    rw [List.getElem?_eq_getElem hRi, Option.bind_some]
    have main : ∃ s1, (if idx s i = 0 ∧ R[i] ≠ none then traverse R ts (n + 2) n i s else some s : Option St) = some s1 ∧ G R n ts F0 s1 [] ∧
        ∀ v, v < i + 1 → idx s1 v ≠ 0 ∨ R[v]? = some none := by
      by_cases c : idx s i = 0 ∧ R[i] ≠ none
      · rw [if_pos c]
        have hwn : whites n s ≤ n := by
          unfold whites
          exact le_trans (List.length_filter_le _ _) (by simp)
        obtain ⟨s1, e1, e2, e3, e4⟩ := traverse_spec (ts := ts) (F0 := F0) hv hn n i s [] hin hg c.1 hwn
        have hG1 : idx s1 i = n + 2 ∧ G R n ts F0 s1 [] := by
          rcases e4 with h | ⟨rest, h1, h2, h3⟩
          · exact h
          · exfalso
            have a1 := h2 0 i (by simp) (by simp)
            have a2 := (h1.grey 0 i (by simp)).1
            omega
        refine ⟨s1, e1, hG1.2, ?_⟩
        intro v hvi
        by_cases cv : v = i
        · left; rw [cv, hG1.1]; omega
        · rcases hd v (by omega) with h | h
          · left; rw [(e2 v (by omega) h).1]; exact h
          · exact .inr h
      · rw [if_neg c]
        refine ⟨s, rfl, hg, ?_⟩
        intro v hvi
        by_cases cv : v = i
        · subst cv
          by_cases c0 : idx s v = 0
          · right
            rw [List.getElem?_eq_getElem hRi]
            by_contra cn
            exact c ⟨c0, fun h => cn (by rw [h])⟩
          · exact .inl c0
        · exact hd v (by omega)
    obtain ⟨s1, e1, e2, e3⟩ := main
    show ∃ s', Option.bind _ _ = _ ∧ _
    rw [e1, Option.bind_some]
    exact ih (i + 1) s1 (by omega) e2 e3

/-- C36: `digraph` makes `F` the least family of sets that contains the initial one and is closed under the relation (`Fin_least`), without an access outside an array -/
theorem C36_digraph_partial (hv : Valid R n) (hF : F0.length = n * ts) (hn : n + 2 ≤ 32767) :
    ∃ F, digraph R ts n F0 = some F ∧ F.length = n * ts ∧ ∀ v k, v < n → k / 32 < ts → (Bit F ts v k ↔ Fin R F0 ts v k) := by
  have hz : ∀ v, idx { F := F0, index := List.replicate (n + 1) 0, vert := List.replicate (n + 1) 0, top := 0 } v = 0 := by
    intro v
    unfold idx
    simp only [List.getD, List.getElem?_replicate]
    split <;> rfl
  have hg : G R n ts F0 { F := F0, index := List.replicate (n + 1) 0, vert := List.replicate (n + 1) 0, top := 0 } [] := by
    refine ⟨hF, by simp, by simp, rfl, by simp, by simp, by simp, ?_, by simp, by simp, ?_, ?_, ?_, ?_⟩
    · intro v _ _; exact .inl (hz v)
    · intro v _ h; rw [hz] at h; omega
    · intro v _ h; rw [hz] at h; omega
    · intro v _ k _ h; exact (Fin_least R F0 ts).1 v k h
    · intro v _ k _ h; exact h
  obtain ⟨s', e1, e2, e3⟩ := mainLoop_spec hv hn n 0 _ (by omega) hg (by intro v h; omega)
  refine ⟨s'.F, ?_, e2.lenF, ?_⟩
  · unfold digraph
    show Option.bind _ _ = _
    rw [e1]
    rfl
  · intro v k hvn hk
    refine ⟨e2.sound v hvn k hk, ?_⟩
    intro hf
    rcases e3 v hvn with h | h
    · rcases e2.nonwhite hvn h with h | h
      · cases h
      · exact e2.final v hvn h k hk hf
    · obtain ⟨w, h1, h2⟩ := hf
      rcases Relation.ReflTransGen.cases_head h1 with h3 | ⟨u, ⟨l, h4, _⟩, _⟩
      · subst h3; exact e2.lower v hvn k hk h2
      · rw [h] at h4; cases h4

/-! ### the bound on the number of gotos -/

theorem mainLoop_none (R : List (Option (List Nat))) (ts : Nat) (inf : Int) (fuel d : Nat) : ∀ (i : Nat) (s : St), i + d ≤ s.index.length →
    (∀ v, i ≤ v → v < i + d → R[v]? = some none) → mainLoop R ts inf fuel d i s = some s := by
  induction d with
  | zero => intro i s _ _; rfl
  | succ d ih =>
    intro i s hi hR
    have h1 : i < s.index.length := by omega
    rw [mainLoop, List.getElem?_eq_getElem h1, hR i (le_refl _) (by omega)]
    show Option.bind _ _ = _
    rw [Option.bind_some]
    show Option.bind _ _ = _
    rw [Option.bind_some, if_neg (by simp)]
    show Option.bind _ _ = _
    rw [Option.bind_some]
    exact ih (i + 1) s (by omega) (fun v h1 h2 => hR v (by omega) (by omega))

theorem mainLoop_add (R : List (Option (List Nat))) (ts : Nat) (inf : Int) (fuel d e : Nat) : ∀ (i : Nat) (s : St),
    mainLoop R ts inf fuel (d + e) i s = (mainLoop R ts inf fuel d i s).bind (fun s => mainLoop R ts inf fuel e (i + d) s) := by
  induction d with
  | zero => intro i s; rw [Nat.zero_add]; rfl
  | succ d ih =>
    intro i s
    rw [show d + 1 + e = (d + e) + 1 by omega, mainLoop, mainLoop]
    show Option.bind _ _ = Option.bind (Option.bind _ _) _
    cases s.index[i]? with
    | none => rfl
    | some ii =>
      rw [Option.bind_some, Option.bind_some]
      show Option.bind _ _ = Option.bind (Option.bind _ _) _
      cases R[i]? with
      | none => rfl
      | some r =>
        rw [Option.bind_some, Option.bind_some]
        show Option.bind _ _ = Option.bind (Option.bind _ _) _
        cases (if ii = 0 ∧ r ≠ none then traverse R ts inf fuel i s else some s : Option St) with
        | none => rfl
        | some s1 =>
          rw [Option.bind_some, Option.bind_some]
          show mainLoop R ts inf fuel (d + e) (i + 1) s1 = _
          rw [ih (i + 1) s1, show i + 1 + d = i + (d + 1) by omega]

theorem orLoop1 (m : Mem) (i j : Nat) : orLoop m (i * 1) (j * 1) (i * 1 + 1) = (match m[i]?, m[j]? with
    | some a, some b => some (m.set i (a ||| b))
    | _, _ => none) := by
  unfold orLoop
  rw [if_pos (by omega), Nat.mul_one, Nat.mul_one]
  cases m[i]? with
  | none => rfl
  | some a => cases m[j]? with
    | none => rfl
    | some b =>
      dsimp only
      unfold orLoop
      rw [if_neg (by omega)]

/-- 32766 gotos, 0 → 2, 1, 3 and 1 → 0 -/
def Rbad : List (Option (List Nat)) := some [2, 1, 3] :: some [0] :: none :: none :: List.replicate 32762 none

def Fbad : Mem := 1#32 :: 2#32 :: 4#32 :: 8#32 :: List.replicate 32762 0#32

theorem trav_leaf (R : List (Option (List Nat))) (inf : Int) (fuel i : Nat) (s : St) (hR : R[i]? = some none) (h1 : s.top + 1 < s.vert.length) (h2 : i < s.index.length)
    (hs : short (s.top + 1 : Nat) = (s.top + 1 : Nat)) :
    traverse R 1 inf (fuel + 1) i s = some { F := s.F, index := s.index.set i (short inf), vert := s.vert.set (s.top + 1) i, top := s.top } := by
  rw [traverse]
  dsimp only
  rw [if_pos ⟨h1, h2⟩, hR, hs]
  show Option.bind _ _ = _
  rw [Option.bind_some]
  show Option.bind _ _ = _
  rw [edges, Option.bind_some]
  show Option.bind _ _ = _
  rw [List.getElem?_set_self h2, Option.bind_some, if_pos rfl, popLoop]
  dsimp only
  rw [List.getElem?_set_self h1]
  dsimp only
  rw [if_pos (by simpa using h2), if_pos rfl, List.set_set]

theorem edge_cons (rec : Nat → St → Option St) (i j : Nat) (rp : List Nat) (s s1 : St) (ij a b : Int) (fa fb : BitVec 32) (h0 : s.index[j]? = some ij)
    (hc : (if ij = 0 then rec j s else some s : Option St) = some s1) (ha : s1.index[i]? = some a) (hb : s1.index[j]? = some b) (hfa : s1.F[i]? = some fa) (hfb : s1.F[j]? = some fb) :
    edgeLoop rec 1 i (j :: rp) s = edgeLoop rec 1 i rp { F := s1.F.set i (fa ||| fb), index := if a > b then s1.index.set i b else s1.index, vert := s1.vert, top := s1.top } := by
  rw [edgeLoop, h0]
  show Option.bind _ _ = _
  rw [Option.bind_some]
  show Option.bind _ _ = _
  rw [hc, Option.bind_some]
  show Option.bind _ _ = _
  rw [ha, Option.bind_some]
  show Option.bind _ _ = _
  rw [hb, Option.bind_some]
  dsimp only
  have : (if a > b then { s1 with index := s1.index.set i b } else s1 : St).F = s1.F := by split <;> rfl
  rw [this, orLoop1, hfa, hfb]
  show Option.bind _ _ = _
  rw [Option.bind_some]
  congr 1
  split <;> rfl

theorem bad_one (R : List (Option (List Nat))) (F : Mem) (il : List Int) (vl : List Nat) (fuel : Nat) (inf : Int) :
    traverse (some [2, 1, 3] :: some [0] :: none :: none :: R) 1 inf (fuel + 2) 1
      { F := 5#32 :: 2#32 :: 4#32 :: 8#32 :: F, index := -32768 :: 0 :: -32768 :: 0 :: il, vert := 0 :: 0 :: 2 :: 0 :: vl, top := 1 } =
    some { F := 5#32 :: 7#32 :: 4#32 :: 8#32 :: F, index := -32768 :: -32768 :: -32768 :: 0 :: il, vert := 0 :: 0 :: 1 :: 0 :: vl, top := 2 } := by
  rw [traverse]
  dsimp only
  rw [if_pos ⟨by simp, by simp⟩]
  show Option.bind (some (some [0])) _ = _
  rw [Option.bind_some]
  show Option.bind _ _ = _
  rw [edges]
  rw [edge_cons _ 1 0 [] _ { F := 5#32 :: 2#32 :: 4#32 :: 8#32 :: F, index := -32768 :: 2 :: -32768 :: 0 :: il, vert := 0 :: 0 :: 1 :: 0 :: vl, top := 2 }
    (-32768) 2 (-32768) 2#32 5#32 rfl (by rw [if_neg (by decide)]; rfl) rfl rfl rfl rfl]
  rfl

theorem bad_zero (R : List (Option (List Nat))) (F : Mem) (il : List Int) (vl : List Nat) (fuel : Nat) (inf : Int) (hinf : short inf = -32768) :
    traverse (some [2, 1, 3] :: some [0] :: none :: none :: R) 1 inf (fuel + 3) 0
      { F := 1#32 :: 2#32 :: 4#32 :: 8#32 :: F, index := 0 :: 0 :: 0 :: 0 :: il, vert := 0 :: 0 :: 0 :: 0 :: vl, top := 0 } =
    some { F := 15#32 :: 7#32 :: 4#32 :: 8#32 :: F, index := -32768 :: -32768 :: -32768 :: -32768 :: il, vert := 0 :: 0 :: 1 :: 3 :: vl, top := 2 } := by
  rw [traverse]
  dsimp only
  rw [if_pos ⟨by simp, by simp⟩]
  show Option.bind (some (some [2, 1, 3])) _ = _
  rw [Option.bind_some]
  show Option.bind _ _ = _
  rw [edges]
  rw [edge_cons _ 0 2 [1, 3] _ { F := 1#32 :: 2#32 :: 4#32 :: 8#32 :: F, index := 1 :: 0 :: -32768 :: 0 :: il, vert := 0 :: 0 :: 2 :: 0 :: vl, top := 1 }
    0 1 (-32768) 1#32 4#32 rfl (by rw [if_pos rfl, trav_leaf _ _ _ _ _ rfl (by simp) (by simp) (by dsimp only; decide), hinf]; rfl) rfl rfl rfl rfl]
  rw [edge_cons _ 0 1 [3] _ { F := 5#32 :: 7#32 :: 4#32 :: 8#32 :: F, index := -32768 :: -32768 :: -32768 :: 0 :: il, vert := 0 :: 0 :: 1 :: 0 :: vl, top := 2 }
    0 (-32768) (-32768) 5#32 7#32 rfl (by rw [if_pos rfl]; exact bad_one R F il vl fuel inf) rfl rfl rfl rfl]
  rw [edge_cons _ 0 3 [] _ { F := 7#32 :: 7#32 :: 4#32 :: 8#32 :: F, index := -32768 :: -32768 :: -32768 :: -32768 :: il, vert := 0 :: 0 :: 1 :: 3 :: vl, top := 2 }
    0 (-32768) (-32768) 7#32 8#32 rfl (by rw [if_pos rfl, trav_leaf _ _ _ _ _ rfl (by simp) (by simp) (by dsimp only; decide), hinf]; rfl) rfl rfl rfl rfl]
  rfl

theorem bad_first (R : List (Option (List Nat))) (F : Mem) (il : List Int) (vl : List Nat) (fuel : Nat) (inf : Int) (hinf : short inf = -32768) :
    mainLoop (some [2, 1, 3] :: some [0] :: none :: none :: R) 1 inf (fuel + 3) 4 0
      { F := 1#32 :: 2#32 :: 4#32 :: 8#32 :: F, index := 0 :: 0 :: 0 :: 0 :: il, vert := 0 :: 0 :: 0 :: 0 :: vl, top := 0 } =
    some { F := 15#32 :: 7#32 :: 4#32 :: 8#32 :: F, index := -32768 :: -32768 :: -32768 :: -32768 :: il, vert := 0 :: 0 :: 1 :: 3 :: vl, top := 2 } := by
  rw [mainLoop]
  show Option.bind (some (0 : Int)) _ = _
  rw [Option.bind_some]
  show Option.bind (some (some [2, 1, 3])) _ = _
  rw [Option.bind_some, if_pos ⟨rfl, by simp⟩, bad_zero R F il vl fuel inf hinf]
  show Option.bind _ _ = _
  rw [Option.bind_some, mainLoop]
  rfl

/-- C36, finding: with 32766 gotos, `infinity` does not fit in a short, and the set of a vertex on a cycle lacks what the other vertex of the cycle gets later -/
theorem C36_short_violation : Valid Rbad 32766 ∧ Fbad.length = 32766 * 1 ∧ Fin Rbad Fbad 1 1 3 ∧ ∃ F, digraph Rbad 1 32766 Fbad = some F ∧ ¬ Bit F 1 1 3 := by
  have hl : Rbad.length = 32766 := by unfold Rbad; simp only [List.length_cons, List.length_replicate]
  refine ⟨⟨hl, ?_⟩, by unfold Fbad; simp only [List.length_cons, List.length_replicate], ?_, ?_⟩
  · rintro v w ⟨l, h1, h2⟩
    match v with
    | 0 =>
      simp only [Rbad, List.getElem?_cons_zero, Option.some.injEq] at h1
      subst h1
      simp at h2; omega
    | 1 =>
      simp only [Rbad, List.getElem?_cons_succ, List.getElem?_cons_zero, Option.some.injEq] at h1
      subst h1
      simp at h2; omega
    | 2 => cases h1
    | 3 => cases h1
    | v + 4 =>
      simp only [Rbad, List.getElem?_cons_succ, List.getElem?_replicate] at h1
      split at h1 <;> cases h1
  · refine ⟨3, ?_, by unfold Bit; decide⟩
    have s1 : Succ Rbad 1 0 := ⟨[0], rfl, by simp⟩
    have s2 : Succ Rbad 0 3 := ⟨[2, 1, 3], rfl, by simp⟩
    exact .tail (.single s1) s2
  · have e : mainLoop Rbad 1 ((32766 : Nat) + 2) 32766 32766 0 { F := Fbad, index := List.replicate (32766 + 1) 0, vert := List.replicate (32766 + 1) 0, top := 0 } =
        some { F := 15#32 :: 7#32 :: 4#32 :: 8#32 :: List.replicate 32762 0#32, index := -32768 :: -32768 :: -32768 :: -32768 :: List.replicate 32763 0,
               vert := 0 :: 0 :: 1 :: 3 :: List.replicate 32763 0, top := 2 } := by
      rw [show (32766 : Nat) = 4 + 32762 from rfl, mainLoop_add]
      have b := bad_first (List.replicate 32762 none) (List.replicate 32762 0#32) (List.replicate 32763 0) (List.replicate 32763 0) 32763 ((32766 : Nat) + 2) (by decide)
      rw [show List.replicate (4 + 32762 + 1) (0 : Int) = 0 :: 0 :: 0 :: 0 :: List.replicate 32763 0 from by
        rw [show 4 + 32762 + 1 = 32763 + 1 + 1 + 1 + 1 from rfl, List.replicate_succ, List.replicate_succ, List.replicate_succ, List.replicate_succ]]
      rw [show List.replicate (4 + 32762 + 1) (0 : Nat) = 0 :: 0 :: 0 :: 0 :: List.replicate 32763 0 from by
        rw [show 4 + 32762 + 1 = 32763 + 1 + 1 + 1 + 1 from rfl, List.replicate_succ, List.replicate_succ, List.replicate_succ, List.replicate_succ]]
      unfold Rbad Fbad
      rw [show 4 + 32762 = 32763 + 3 from rfl, show (((32763 + 3 : Nat) : Int) + 2) = ((32766 : Nat) + 2 : Int) from rfl, b, Option.bind_some]
      apply mainLoop_none
      · simp only [List.length_cons, List.length_replicate]; omega
      · intro v h1 h2
        obtain ⟨u, rfl⟩ : ∃ u, v = u + 4 := ⟨v - 4, by omega⟩
        simp only [List.getElem?_cons_succ, List.getElem?_replicate]
        rw [if_pos (by omega)]
    refine ⟨15#32 :: 7#32 :: 4#32 :: 8#32 :: List.replicate 32762 0#32, ?_, ?_⟩
    · unfold digraph
      show Option.bind _ _ = _
      rw [e]
      rfl
    · unfold Bit; decide

/-- 0 → 1, 1 → 2, 2 → 1, 3 → 0: two words each -/
def Rex : List (Option (List Nat)) := [some [1], some [2], some [1], some [0], none]

example : Valid Rex 5 ∧ 5 + 2 ≤ 32767 := by
  refine ⟨⟨rfl, ?_⟩, by decide⟩
  rintro v w ⟨l, h1, h2⟩
  match v with
  | 0 => cases h1; simp at h2; omega
  | 1 => cases h1; simp at h2; omega
  | 2 => cases h1; simp at h2; omega
  | 3 => cases h1; simp at h2; omega
  | 4 => cases h1
  | v + 5 => cases h1

example : Fin Rex [0, 0, 0, 0, 0, 4, 0, 0, 0, 0] 2 3 34 := by
  have s1 : Succ Rex 3 0 := ⟨[0], rfl, by simp⟩
  have s2 : Succ Rex 0 1 := ⟨[1], rfl, by simp⟩
  have s3 : Succ Rex 1 2 := ⟨[2], rfl, by simp⟩
  exact ⟨2, .tail (.tail (.single s1) s2) s3, by unfold Bit; decide⟩

end Mosml.Yacc.Digraph
