import Verif.Yacc.PackLemmas
import Verif.Yacc.MkparProps
import Mathlib.Data.List.Nodup

namespace Mosml.Yacc.Pack

/-- C35: in the packed tables the entry of every vector (a row of shifts, a row of reductions, or a column of gotos) is found, and nothing else.  `over`
is how far `lowzero` runs beyond the end of a full table, which may be anything. -/
theorem C35_pack {nstates : Nat} {vecs : List Vec} {width : List Int} {over : Option Nat} {base : List Int} {s : St} (g : ∀ v ∈ vecs, Good v)
    (h : packTable nstates vecs width over = .ok (base, s)) (i : Nat) (hi : i < vecs.length) (x : Int) (hx : 0 ≤ x) (t : Int) :
    lookup s (base.getD i 0) x = some t ↔ (x, t) ∈ vecs.getD i [] := by
  obtain ⟨pos, dn, v, hd⟩ := packTable_ok g h
  exact v.lookup g hd hi x t hx

/-- C35: the packing stops, with tables or with the message that they are too large, whatever is found beyond the end of a full table -/
theorem C35_defined (nstates : Nat) (vecs : List Vec) (width : List Int) (d : Nat) (g : ∀ v ∈ vecs, Good v) :
    packTable nstates vecs width (some d) ≠ .undef := by
  obtain ⟨a, b⟩ := sortLoop_spec vecs width vecs.length
  exact packLoopTable_ne nstates vecs width d g _ _ _ _ _ (Inv.start vecs) ((List.reverse_perm _).nodup_iff.2 a)
    (fun i hi => ⟨((b i).1 (List.mem_reverse.1 hi)).1, by simp⟩) (fun i hi => ((b i).1 (List.mem_reverse.1 hi)).2)

/-- C35: the parser goes to the right state after every reduction: for a nonterminal whose gotos are `gs`, the packed column and the default state together
give the state for every pair -/
theorem C35_goto {nstates : Nat} {vecs : List Vec} {width : List Int} {over : Option Nat} {base : List Int} {s : St} (g : ∀ v ∈ vecs, Good v)
    (h : packTable nstates vecs width over = .ok (base, s)) (sym : Nat) (gs : List (Int × Int)) (d : Int) (hgs : Good gs)
    (hv : vecs[2 * nstates + sym]? = some (saveColumn gs d)) (p q : Int) (hpq : (p, q) ∈ gs) :
    gotoState s (base.getD (2 * nstates + sym) 0) d p = some q := by
  have hi : 2 * nstates + sym < vecs.length := (List.getElem?_eq_some_iff.1 hv).1
  have hp : 0 ≤ p := hgs.1 _ hpq
  have hvec : vecs.getD (2 * nstates + sym) [] = saveColumn gs d := by rw [List.getD_eq_getElem?_getD, hv]; rfl
  have key := fun t => C35_pack g h _ hi p hp t
  simp only [hvec] at key
  unfold gotoState
  dsimp only
  by_cases hq : q = d
  · have hno : ∀ t, lookup s (base.getD (2 * nstates + sym) 0) p ≠ some t := by
      intro t ht
      have := (key t).1 ht
      simp only [saveColumn, List.mem_filter, decide_eq_true_eq] at this
      have e : (p, t) = (p, q) := (List.inj_on_of_nodup_map hgs.2) this.1 hpq rfl
      cases e
      exact this.2 hq
    split
    · rename_i hc
      exfalso
      have hl : (base.getD (2 * nstates + sym) 0 + p).toNat < s.table.length := by
        obtain ⟨pos, dn, v, _⟩ := packTable_ok g h
        rw [← v.wf.1]
        exact (List.getElem?_eq_some_iff.1 hc.2.2.2).1
      refine hno (s.table[(base.getD (2 * nstates + sym) 0 + p).toNat]) ?_
      unfold lookup
      dsimp only
      rw [if_pos hc, List.getElem?_eq_getElem hl]
    · rw [hq]
  · have := (key q).2 (by simp only [saveColumn, List.mem_filter, decide_eq_true_eq]; exact ⟨hpq, hq⟩)
    unfold lookup at this
    dsimp only at this
    split at this
    · rename_i hc
      rw [if_pos hc]; exact this
    · cases this

/-! ### the rows of actions -/

theorem rowPairs_mem (sv : Nat → Int) (off : Int) : ∀ (j : Nat) (row : List Int) (x t : Int),
    (x, t) ∈ rowPairs sv off j row ↔ ∃ (k : Nat) (a : Int), row[k]? = some a ∧ a ≠ 0 ∧ x = sv (j + k) ∧ t = a - off
  | _, [], x, t => by simp [rowPairs]
  | j, a :: as, x, t => by
    have ih := rowPairs_mem sv off (j + 1) as x t
    have tail : (∃ (k : Nat) (b : Int), (a :: as)[k]? = some b ∧ b ≠ 0 ∧ x = sv (j + k) ∧ t = b - off) ↔
        (a ≠ 0 ∧ x = sv j ∧ t = a - off) ∨ ∃ (k : Nat) (b : Int), as[k]? = some b ∧ b ≠ 0 ∧ x = sv (j + 1 + k) ∧ t = b - off := by
      constructor
      · rintro ⟨k, b, h1, h2, h3, h4⟩
        cases k with
        | zero =>
          simp only [List.getElem?_cons_zero, Option.some.injEq] at h1
          subst h1
          exact .inl ⟨h2, by simpa using h3, h4⟩
        | succ k =>
          rw [List.getElem?_cons_succ] at h1
          exact .inr ⟨k, b, h1, h2, by rw [h3]; congr 1; omega, h4⟩
      · rintro (⟨h2, h3, h4⟩ | ⟨k, b, h1, h2, h3, h4⟩)
        · exact ⟨0, a, by simp, h2, by simpa using h3, h4⟩
        · exact ⟨k + 1, b, by simpa using h1, h2, by rw [h3]; congr 1; omega, h4⟩
    rw [tail, ← ih]
    show (x, t) ∈ (if a ≠ 0 then (sv j, a - off) :: rowPairs sv off (j + 1) as else rowPairs sv off (j + 1) as) ↔ _
    split
    · rename_i h
      simp only [List.mem_cons, Prod.mk.injEq]
      tauto
    · rename_i h
      have : a = 0 := by simpa using h
      simp [this]

theorem rowPairs_len (sv : Nat → Int) (off : Int) : ∀ (j : Nat) (row : List Int), (rowPairs sv off j row).length = row.countP (· ≠ 0)
  | _, [] => rfl
  | j, a :: as => by
    unfold rowPairs
    split
    · rename_i h
      rw [List.countP_cons_of_pos (by simpa using h), List.length_cons, rowPairs_len sv off (j + 1) as]
    · rename_i h
      rw [List.countP_cons_of_neg (by simpa using h), rowPairs_len sv off (j + 1) as]

theorem rowPairs_good (sv : Nat → Int) (off : Int) : ∀ (j : Nat) (row : List Int),
    (∀ k, k < j + row.length → 0 ≤ sv k) → (∀ k l, k < j + row.length → l < j + row.length → sv k = sv l → k = l) → Good (rowPairs sv off j row)
  | _, [], _, _ => by simp [rowPairs, Good]
  | j, a :: as, h0, h => by
    rw [List.length_cons] at h0 h
    have ih := rowPairs_good sv off (j + 1) as (fun k hk => h0 k (by omega)) (fun k l hk hl => h k l (by omega) (by omega))
    unfold rowPairs
    split
    · refine ⟨?_, ?_⟩
      · intro p hp
        rcases List.mem_cons.1 hp with rfl | hp
        · exact h0 j (by omega)
        · exact ih.1 p hp
      · rw [List.map_cons, List.nodup_cons]
        refine ⟨?_, ih.2⟩
        intro hm
        obtain ⟨⟨x, t⟩, hp, e⟩ := List.mem_map.1 hm
        obtain ⟨k, b, k1, k2, k3, k4⟩ := (rowPairs_mem sv off (j + 1) as x t).1 hp
        have hk : k < as.length := (List.getElem?_eq_some_iff.1 k1).1
        simp only at e
        have := h (j + 1 + k) j (by omega) (by omega) (by rw [← k3, e])
        omega
    · exact ih

/-- the actions that are left -/
def live (ps : List Action) : List Action := ps.filter (fun a => a.suppressed = 0)

theorem countP_set_new {l : List Int} {i : Nat} {a : Int} (h : l[i]? = some 0) (ha : a ≠ 0) :
    (l.set i a).countP (· ≠ 0) = l.countP (· ≠ 0) + 1 := by
  have hi : i < l.length := (List.getElem?_eq_some_iff.1 h).1
  have h0 : l[i] = 0 := (List.getElem?_eq_some_iff.1 h).2
  rw [List.countP_set hi]
  simp [h0, ha]

theorem rowLoop_spec (defred : Int) : ∀ (ps : List Action) (sc rc : Nat) (srow rrow : List Int), srow.length = rrow.length →
    (∀ p ∈ live ps, p.symbol < srow.length ∧ p.number ≠ 0 ∧ srow[p.symbol]? = some 0 ∧ rrow[p.symbol]? = some 0) →
    (live ps).Pairwise (fun a b => a.symbol < b.symbol) → sc = srow.countP (· ≠ 0) → rc = rrow.countP (· ≠ 0) →
    ∃ srow' rrow', rowLoop defred ps sc rc srow rrow = some (srow'.countP (· ≠ 0), rrow'.countP (· ≠ 0), srow', rrow') ∧
      srow'.length = srow.length ∧ rrow'.length = rrow.length ∧
      (∀ (x : Nat) (a : Int), a ≠ 0 → (srow'[x]? = some a ↔ srow[x]? = some a ∨ ∃ p ∈ live ps, p.code = .shift ∧ p.symbol = x ∧ p.number = a)) ∧
      (∀ (x : Nat) (a : Int), a ≠ 0 → (rrow'[x]? = some a ↔ rrow[x]? = some a ∨
        ∃ p ∈ live ps, p.code = .reduce ∧ p.symbol = x ∧ p.number = a ∧ a ≠ defred))
  | [], sc, rc, srow, rrow, hl, h, hp, h1, h2 => by
    subst h1 h2
    exact ⟨srow, rrow, rfl, rfl, rfl, by simp [live], by simp [live]⟩
  | p :: ps, sc, rc, srow, rrow, hl, h, hp, h1, h2 => by
    unfold rowLoop
    by_cases hs : p.suppressed = 0
    swap
    · rw [if_neg hs]
      have e : live (p :: ps) = live ps := by simp [live, hs]
      rw [e] at h hp ⊢
      exact rowLoop_spec defred ps sc rc srow rrow hl h hp h1 h2
    have e : live (p :: ps) = p :: live ps := by simp [live, hs]
    rw [e] at h hp ⊢
    rw [List.pairwise_cons] at hp
    rw [if_pos hs]
    obtain ⟨a1, a2, a3, a4⟩ := h p (by simp)
    have hrest : ∀ q ∈ live ps, q.symbol < srow.length ∧ q.number ≠ 0 ∧ srow[q.symbol]? = some 0 ∧ rrow[q.symbol]? = some 0 :=
      fun q hq => h q (by simp [hq])
    have hne : ∀ q ∈ live ps, p.symbol ≠ q.symbol := fun q hq => by have := hp.1 q hq; omega
    rcases Mkpar.code_cases p with hc | hc
    · rw [if_pos hc, if_pos a1]
      obtain ⟨srow', rrow', k1, k2, k3, k4, k5⟩ := rowLoop_spec defred ps (sc + 1) rc (srow.set p.symbol p.number) rrow (by simpa using hl)
        (fun q hq => by
          obtain ⟨b1, b2, b3, b4⟩ := hrest q hq
          exact ⟨by simpa using b1, b2, by rw [List.getElem?_set_ne (hne q hq)]; exact b3, b4⟩) hp.2 (by rw [countP_set_new a3 a2, h1]) h2
      refine ⟨srow', rrow', k1, by simpa using k2, k3, ?_, ?_⟩
      · intro x a ha
        rw [k4 x a ha]
        simp only [List.mem_cons, exists_eq_or_imp]
        by_cases hx : p.symbol = x
        · subst hx
          rw [List.getElem?_set_self a1, a3]
          have z : ¬ (some (0 : Int) = some a) := by simpa using ha.symm
          simp only [Option.some.injEq, z, hc, true_and, false_or]
        · rw [List.getElem?_set_ne hx]
          simp [hx]
      · intro x a ha
        rw [k5 x a ha]
        simp [hc]
    · rw [if_neg (by rw [hc]; decide)]
      by_cases hd : p.number ≠ defred
      · rw [if_pos hd, if_pos (by omega)]
        obtain ⟨srow', rrow', k1, k2, k3, k4, k5⟩ := rowLoop_spec defred ps sc (rc + 1) srow (rrow.set p.symbol p.number) (by simpa using hl)
          (fun q hq => by
            obtain ⟨b1, b2, b3, b4⟩ := hrest q hq
            exact ⟨by simpa using b1, b2, b3, by rw [List.getElem?_set_ne (hne q hq)]; exact b4⟩) hp.2 h1 (by rw [countP_set_new a4 a2, h2])
        refine ⟨srow', rrow', k1, k2, by simpa using k3, ?_, ?_⟩
        · intro x a ha
          rw [k4 x a ha]
          simp [hc]
        · intro x a ha
          rw [k5 x a ha]
          simp only [List.mem_cons, exists_eq_or_imp]
          by_cases hx : p.symbol = x
          · subst hx
            rw [List.getElem?_set_self (by omega), a4]
            have z : ¬ (some (0 : Int) = some a) := by simpa using ha.symm
            simp only [Option.some.injEq, z, hc, true_and, false_or]
            constructor
            · rintro (e | e)
              · exact .inl ⟨e, by rw [← e]; exact hd⟩
              · exact .inr e
            · rintro (e | e)
              · exact .inl e.1
              · exact .inr e
          · rw [List.getElem?_set_ne hx]
            simp [hx]
      · rw [if_neg hd]
        have hd : p.number = defred := by simpa using hd
        obtain ⟨srow', rrow', k1, k2, k3, k4, k5⟩ := rowLoop_spec defred ps sc rc srow rrow hl hrest hp.2 h1 h2
        refine ⟨srow', rrow', k1, k2, k3, ?_, ?_⟩
        · intro x a ha
          rw [k4 x a ha]
          simp [hc]
        · intro x a ha
          rw [k5 x a ha]
          simp only [List.mem_cons, exists_eq_or_imp]
          have : ¬ (p.code = .reduce ∧ p.symbol = x ∧ p.number = a ∧ a ≠ defred) := by
            rintro ⟨_, _, x1, x2⟩
            exact x2 (x1 ▸ hd)
          simp [this]

theorem rowVec_eq (sv : Nat → Int) (off : Int) (row : List Int) : rowVec sv off (row.countP (· ≠ 0)) row = some (rowPairs sv off 0 row) := by
  unfold rowVec
  dsimp only
  have hl := rowPairs_len sv off 0 row
  split
  · rename_i h
    rw [h] at hl
    rw [List.length_eq_zero_iff.1 hl]
  · rw [if_pos (by omega), hl]
    simp

/-- C35: the rows of a state hold exactly the actions that are left, one pair for each -/
theorem C35_rows (ntokens : Nat) (sv : Nat → Int) (defred : Int) (ps : List Action) (h0 : ∀ k < ntokens, 0 ≤ sv k)
    (hsv : ∀ k < ntokens, ∀ l < ntokens, sv k = sv l → k = l) (hps : ∀ p ∈ live ps, p.symbol < ntokens ∧ p.number ≠ 0)
    (hu : (live ps).Pairwise (fun a b => a.symbol < b.symbol)) :
    ∃ v w, tokenActions ntokens sv defred ps = some (v, w) ∧ Good v ∧ Good w ∧
      (∀ x < ntokens, ∀ t, (sv x, t) ∈ v ↔ ∃ p ∈ live ps, p.code = .shift ∧ p.symbol = x ∧ p.number = t) ∧
      (∀ x < ntokens, ∀ t, (sv x, t) ∈ w ↔ ∃ p ∈ live ps, p.code = .reduce ∧ p.symbol = x ∧ p.number = t + 2 ∧ p.number ≠ defred) := by
  have hz : ∀ x < ntokens, (List.replicate ntokens (0 : Int))[x]? = some 0 := fun x hx => by simp [hx]
  obtain ⟨srow, rrow, k1, k2, k3, k4, k5⟩ := rowLoop_spec defred ps 0 0 (List.replicate ntokens 0) (List.replicate ntokens 0) rfl
    (fun p hp => ⟨by simpa using (hps p hp).1, (hps p hp).2, hz _ (hps p hp).1, hz _ (hps p hp).1⟩) hu
    (by simp [List.countP_replicate]) (by simp [List.countP_replicate])
  rw [List.length_replicate] at k2 k3
  refine ⟨rowPairs sv 0 0 srow, rowPairs sv 2 0 rrow, ?_, ?_, ?_, ?_, ?_⟩
  · unfold tokenActions
    rw [k1]
    simp only [rowVec_eq]
  · exact rowPairs_good sv 0 0 srow (fun k hk => h0 k (by omega)) (fun k l hk hl => hsv k (by omega) l (by omega))
  · exact rowPairs_good sv 2 0 rrow (fun k hk => h0 k (by omega)) (fun k l hk hl => hsv k (by omega) l (by omega))
  · intro x hx t
    rw [rowPairs_mem]
    simp only [Nat.zero_add, Int.sub_zero]
    constructor
    · rintro ⟨k, a, b1, b2, b3, b4⟩
      have hk : k < srow.length := (List.getElem?_eq_some_iff.1 b1).1
      have e := hsv x hx k (by omega) b3
      subst e b4
      rcases (k4 x t b2).1 b1 with c | c
      · rw [hz x hx] at c; cases c; exact absurd rfl b2
      · exact c
    · rintro ⟨p, b1, b2, b3, b4⟩
      have hn : t ≠ 0 := b4 ▸ (hps p b1).2
      exact ⟨x, t, (k4 x t hn).2 (.inr ⟨p, b1, b2, b3, b4⟩), hn, rfl, rfl⟩
  · intro x hx t
    rw [rowPairs_mem]
    simp only [Nat.zero_add]
    constructor
    · rintro ⟨k, a, b1, b2, b3, b4⟩
      have hk : k < rrow.length := (List.getElem?_eq_some_iff.1 b1).1
      have e := hsv x hx k (by omega) b3
      subst e
      rcases (k5 x a b2).1 b1 with c | ⟨p, c1, c2, c3, c4, c5⟩
      · rw [hz x hx] at c; cases c; exact absurd rfl b2
      · exact ⟨p, c1, c2, c3, by omega, by omega⟩
    · rintro ⟨p, b1, b2, b3, b4, b5⟩
      have hn : t + 2 ≠ 0 := b4 ▸ (hps p b1).2
      exact ⟨x, t + 2, (k5 x _ hn).2 (.inr ⟨p, b1, b2, b3, b4, b4 ▸ b5⟩), hn, rfl, by omega⟩

/-- what the parser does next, src/runtime/parsing.c:90-117 without reading of tokens; the emitted default is output.c:137, 151 -/
inductive Move where
  | shift (state : Int)
  | reduce (rule : Int)
  | error
deriving DecidableEq, Repr

def move (s : St) (sindex rindex defred : Int) (tok : Int) : Move :=
  if defred ≠ 0 then .reduce defred
  else match lookup s sindex tok with
    | some k => .shift k
    | none => match lookup s rindex tok with
      | some n => .reduce n
      | none => .error

/-- C35: for every state and token the parser finds in the emitted tables exactly the action that `remove_conflicts` has left, and an error if there is
none; only a state with a default reduction, all whose actions left are that reduction (C52_default), does not look at the token.  Rules are numbered
from 0 in the tables, and rule 2 is that of `$accept`, which no state reached by the parser reduces by default. -/
theorem C35_action {nstates ntokens : Nat} {vecs : List Vec} {width : List Int} {over : Option Nat} {base : List Int} {s : St} (g : ∀ v ∈ vecs, Good v)
    (h : packTable nstates vecs width over = .ok (base, s)) (sv : Nat → Int) (h0 : ∀ k < ntokens, 0 ≤ sv k)
    (hsv : ∀ k < ntokens, ∀ l < ntokens, sv k = sv l → k = l) (i : Nat) (ps : List Action)
    (hps : ∀ p ∈ ps, p.symbol < ntokens ∧ 0 < p.number) (hu : (live ps).Pairwise (fun a b => a.symbol < b.symbol))
    (v w : Vec) (hvw : tokenActions ntokens sv (Mkpar.soleReduction ps) ps = some (v, w)) (hv : vecs[i]? = some v) (hw : vecs[nstates + i]? = some w)
    (h2 : Mkpar.soleReduction ps ≠ 2) (x : Nat) (hx : x < ntokens) :
    let d := Mkpar.soleReduction ps
    let m := move s (base.getD i 0) (base.getD (nstates + i) 0) (if d ≠ 0 then d - 2 else 0) (sv x)
    (∀ p ∈ live ps, p.symbol = x → m = match p.code with | .shift => .shift p.number | .reduce => .reduce (p.number - 2)) ∧
    (d = 0 → (∀ p ∈ live ps, p.symbol ≠ x) → m = .error) := by
  intro d m
  have lm : ∀ p ∈ live ps, p ∈ ps := fun p hp => (List.mem_filter.1 hp).1
  have ls : ∀ p ∈ live ps, p.suppressed = 0 := fun p hp => by simpa using (List.mem_filter.1 hp).2
  obtain ⟨v', w', e, gv, gw, kv, kw⟩ := C35_rows ntokens sv d ps h0 hsv
    (fun p hp => ⟨(hps p (lm p hp)).1, by have := (hps p (lm p hp)).2; omega⟩) hu
  have e' : tokenActions ntokens sv d ps = some (v, w) := hvw
  rw [e'] at e
  cases e
  have li : i < vecs.length := (List.getElem?_eq_some_iff.1 hv).1
  have lw : nstates + i < vecs.length := (List.getElem?_eq_some_iff.1 hw).1
  have ev : vecs.getD i [] = v := by rw [List.getD_eq_getElem?_getD, hv]; rfl
  have ew : vecs.getD (nstates + i) [] = w := by rw [List.getD_eq_getElem?_getD, hw]; rfl
  have pv := C35_pack g h i li (sv x) (h0 x hx)
  have pw := C35_pack g h _ lw (sv x) (h0 x hx)
  rw [ev] at pv
  rw [ew] at pw
  have uniq : ∀ p ∈ live ps, ∀ q ∈ live ps, p.symbol = q.symbol → p = q := by
    intro p hp q hq he
    by_contra hne
    have nd : ((live ps).map Action.symbol).Nodup := by
      rw [List.nodup_iff_pairwise_ne, List.pairwise_map]
      exact hu.imp fun {a b} h => by omega
    exact hne (List.inj_on_of_nodup_map nd hp hq he)
  by_cases hd : d = 0
  · have hm : m = match lookup s (base.getD i 0) (sv x) with
        | some k => .shift k
        | none => match lookup s (base.getD (nstates + i) 0) (sv x) with
          | some n => .reduce n
          | none => .error := by
      show move _ _ _ _ _ = _
      unfold move
      rw [if_neg (by simp [hd])]
    constructor
    · intro p hp hsym
      rw [hm]
      rcases Mkpar.code_cases p with hc | hc
      · rw [(pv p.number).2 ((kv x hx _).2 ⟨p, hp, hc, hsym, rfl⟩), hc]
      · have no : lookup s (base.getD i 0) (sv x) = none := by
          rw [Option.eq_none_iff_forall_ne_some]
          intro k hk
          obtain ⟨q, q1, q2, q3, q4⟩ := (kv x hx _).1 ((pv k).1 hk)
          have := uniq q q1 p hp (by omega)
          rw [this, hc] at q2
          cases q2
        rw [no]
        dsimp only
        rw [(pw (p.number - 2)).2 ((kw x hx _).2 ⟨p, hp, hc, hsym, by omega, by have := (hps p (lm p hp)).2; omega⟩), hc]
    · intro _ hno
      rw [hm]
      have n1 : lookup s (base.getD i 0) (sv x) = none := by
        rw [Option.eq_none_iff_forall_ne_some]
        intro k hk
        obtain ⟨q, q1, q2, q3, q4⟩ := (kv x hx _).1 ((pv k).1 hk)
        exact hno q q1 q3
      have n2 : lookup s (base.getD (nstates + i) 0) (sv x) = none := by
        rw [Option.eq_none_iff_forall_ne_some]
        intro k hk
        obtain ⟨q, q1, q2, q3, q4⟩ := (kw x hx _).1 ((pw k).1 hk)
        exact hno q q1 q3
      rw [n1, n2]
  · refine ⟨?_, fun e => absurd e hd⟩
    intro p hp _
    obtain ⟨k1, k2⟩ := Mkpar.C52_default ps (fun p hp => (hps p hp).2) hd p (lm p hp)
    have k2 := k2 (ls p hp)
    have hm : m = .reduce (d - 2) := by
      show move _ _ _ _ _ = _
      unfold move
      rw [if_pos hd, if_pos (by omega)]
    rw [hm, k1]
    dsimp only
    rw [k2]

/-! ### reading beyond the end of a full table -/

theorem lowScan_none : ∀ (c : List Int) (l : Nat), (∀ x ∈ c, x ≠ -1) → lowScan none c l = .undef
  | [], _, _ => rfl
  | c :: cs, l, h => by
    unfold lowScan
    rw [if_pos (h c (by simp))]
    exact lowScan_none cs (l + 1) fun x hx => h x (by simp [hx])

theorem firstPlace_eq (lz : Nat) : ∀ (v : Vec) (j : Int), (∀ p ∈ v, (lz : Int) - p.1 ≤ j) → firstPlace lz v j = j
  | [], _, _ => rfl
  | (f, t) :: v, j, h => by
    have := h (f, t) (by simp)
    simp only at this
    simp only [firstPlace]
    rw [if_neg (by omega)]
    exact firstPlace_eq lz v j fun p hp => h p (by simp [hp])

theorem tryPlace_free (j : Int) (s : St) (w : Wf s) : ∀ v : Vec, (∀ p ∈ v, ∃ loc : Nat, (loc : Int) = j + p.1 ∧ s.check[loc]? = some (-1)) →
    tryPlace j v s = .ok (s, true)
  | [], _ => rfl
  | (f, t) :: v, h => by
    obtain ⟨loc, h1, h2⟩ := h (f, t) (by simp)
    simp only at h1
    have hl : loc < s.check.length := (List.getElem?_eq_some_iff.1 h2).1
    have e : (j + f).toNat = loc := by omega
    rw [tryPlace_cons, if_neg (by omega), e]
    have : room loc s = .ok s := by
      unfold room; rw [if_neg (by rw [← w.1]; omega)]
    rw [this]
    simp only [Res.bind, h2]
    exact tryPlace_free j s w v fun p hp => h p (by simp [hp])

/-- a row of shifts on `n` tokens, numbered from 257 as the first token declared in a grammar (reader.c:990) -/
def bigRow (n : Nat) : Vec := (List.range n).map fun (k : Nat) => ((k : Int) + 257, (k : Int) + 1)

theorem bigRow_mem {n : Nat} {p : Int × Int} : p ∈ bigRow n ↔ ∃ k < n, p = ((k : Int) + 257, (k : Int) + 1) := by
  simp only [bigRow, List.mem_map, List.mem_range]
  constructor
  · rintro ⟨k, h, rfl⟩; exact ⟨k, h, rfl⟩
  · rintro ⟨k, h, rfl⟩; exact ⟨k, h, rfl⟩

theorem bigRow_good (n : Nat) : Good (bigRow n) := by
  refine ⟨?_, ?_⟩
  · intro p hp
    obtain ⟨k, _, rfl⟩ := bigRow_mem.1 hp
    show (0 : Int) ≤ (k : Int) + 257
    omega
  · rw [bigRow, List.map_map, List.nodup_iff_pairwise_ne, List.pairwise_map]
    refine List.Pairwise.imp ?_ (List.pairwise_lt_range (n := n))
    intro a b h
    simp only [Function.comp]
    omega

/-- the state after `pack_table` has cleared the table -/
def st0 : St := { table := List.replicate 1000 0, check := List.replicate 1000 (-1), lowzero := 0, high := 0 }

theorem st0_wf : Wf st0 := (Inv.start []).wf

theorem bigRow_undef (n : Nat) (hn : n = 1000) : packVector none (bigRow n) [] st0 = .undef := by
  have hc : ∀ k < n, st0.check[k]? = some (-1) := by
    intro k hk
    show (List.replicate 1000 (-1 : Int))[k]? = _
    rw [List.getElem?_replicate, if_pos (by omega)]
  have hlen : st0.table.length = n := by
    show (List.replicate 1000 (0 : Int)).length = n
    rw [List.length_replicate, hn]
  have hcons : bigRow n = ((0 : Int) + 257, (0 : Int) + 1) :: (bigRow n).tail := by
    obtain ⟨m, rfl⟩ : ∃ m, n = m + 1 := ⟨999, by omega⟩
    unfold bigRow
    rw [List.range_succ_eq_map, List.map_cons]
    rfl
  have hfree : ∀ p ∈ bigRow n, ∃ loc : Nat, (loc : Int) = -257 + p.1 ∧ st0.check[loc]? = some (-1) := by
    intro p hp
    obtain ⟨k, hk, rfl⟩ := bigRow_mem.1 hp
    exact ⟨k, by dsimp only; omega, hc k hk⟩
  obtain ⟨s2, h2⟩ := write_ne (-257) (bigRow n) st0 fun p hp => by
    obtain ⟨k, hk, rfl⟩ := bigRow_mem.1 hp
    exact ⟨k, by dsimp only; omega, by omega⟩
  obtain ⟨w2, _, _, t2, _, e2⟩ := write_ok (-257) (bigRow n) st0 s2 st0_wf (bigRow_good n).2 h2
  have full : ∀ x ∈ s2.check.drop s2.lowzero, x ≠ -1 := by
    intro x hx
    obtain ⟨k, hk, rfl⟩ := List.mem_iff_getElem.1 (List.mem_of_mem_drop hx)
    have hk' := hk
    rw [w2.1, t2, hlen] at hk'
    obtain ⟨loc, l1, l2, _⟩ := e2 _ (bigRow_mem.2 ⟨k, hk', rfl⟩)
    simp only at l1 l2
    have : loc = k := by omega
    subst this
    rw [List.getElem?_eq_getElem hk] at l2
    simp only [Option.some.injEq] at l2
    omega
  have fp : firstPlace st0.lowzero (bigRow n).tail (st0.lowzero - ((0 : Int) + 257)) = -257 := by
    rw [firstPlace_eq]
    · rfl
    · intro p hp
      obtain ⟨k, _, rfl⟩ := bigRow_mem.1 (List.mem_of_mem_tail hp)
      show ((0 : Nat) : Int) - ((k : Int) + 257) ≤ ((0 : Nat) : Int) - _
      omega
  rw [hcons]
  unfold packVector
  dsimp only
  rw [fp, ← hcons]
  obtain ⟨fuel, hf⟩ : ∃ fuel, (((MAXTABLE : Int) + 200 - (-257 + (0 + 257))).toNat + 2) = fuel + 1 := ⟨_, rfl⟩
  rw [hf]
  unfold packLoop
  rw [if_neg (by decide), tryPlace_free (-257) st0 st0_wf _ hfree]
  simp only [Res.bind]
  rw [if_pos (by rfl), h2]
  simp only
  rw [lowScan_none _ _ full]

/-- a state that shifts on 1000 tokens fills the table of 1000 places, and `while (check[lowzero] != -1)` reads beyond its end (output.c:582) -/
theorem C35_lowzero_violation : packTable 1 [bigRow 1000, []] [1000, 0] none = .undef := by
  have h0 : (bigRow 1000).length > 0 := by rw [bigRow, List.length_map, List.length_range]; decide
  have hu := bigRow_undef 1000 rfl
  revert h0 hu
  generalize bigRow 1000 = v
  intro h0 hu
  have hs : sortLoop [v, []] [1000, 0] 2 = [0] := by
    have e1 : sortLoop [v, []] [1000, 0] 1 = [0] := by
      unfold sortLoop
      dsimp only
      rw [if_pos (by exact h0)]
      rfl
    unfold sortLoop
    dsimp only
    rw [if_neg (by simp), e1]
  unfold packTable
  show packLoopTable _ _ _ _ (sortLoop [v, []] [1000, 0] 2).reverse [] _ [] st0 = _
  rw [hs]
  show packLoopTable 1 [v, []] [1000, 0] none [0] [] _ [] st0 = _
  unfold packLoopTable
  have hm : matchingVector 1 [v, []] [1000, 0] 0 [] = none := by
    unfold matchingVector
    rw [if_neg (by decide)]
    rfl
  rw [hm]
  dsimp only
  have : List.getD [v, []] 0 [] = v := rfl
  rw [this, hu]
  rfl

/-! ### examples: two rows that share, a row of reductions between them and a column -/

def exVecs : List Vec := [[(257, 1), (258, 2)], [(257, 1), (258, 2)], [(258, 1)], [], saveColumn [(0, 3), (1, 4), (2, 3)] 3]

example : ∀ v ∈ exVecs, Good v := by
  unfold Good exVecs; decide
example : (match packTable 2 exVecs [2, 2, 1, 0, 1] (some 0) with
    | .ok (b, s) => b == [-257, -257, -256, 0, 2] && gotoState s 2 3 1 == some 4 && s.high == 3
    | _ => false) = true := by decide +kernel
example : Good [(0, 3), (1, 4), (2, 3)] := by unfold Good; decide
example : tokenActions 3 (fun k => k + 256) 0 [Mkpar.plusShift] = none := by decide
example : tokenActions 4 (fun k => k + 256) 0 [Mkpar.plusShift] = some ([(259, 7)], []) := by decide
example : defaultGoto 5 [(0, 3), (1, 4), (2, 3)] = some 3 := by decide

end Mosml.Yacc.Pack
