import Verif.Help.Model
import Verif.Util

/-! # C96: the help system finds and shows what is asked for -/
namespace Mosml.Help
open Mosml.Num (chars)

/-! ## the index -/

/-- the place of a character in the order of the index: case does not matter, and the tilde stands between
the symbols and the letters -/
def rank (c : Nat) : Nat :=
  if c = 126 then 193 else if 65 ≤ c ∧ c ≤ 90 then 2 * (c + 32) else 2 * c

/-- two texts are the same up to case -/
def same (s t : Str) : Prop :=
  s.map (fun c => if 65 ≤ c ∧ c ≤ 90 then c + 32 else c) = t.map (fun c => if 65 ≤ c ∧ c ≤ 90 then c + 32 else c)

/-- `s` comes before `t`: it is a proper prefix, or has the smaller character at the first difference -/
def before (s t : Str) : Prop :=
  (∃ c u, t.map rank = s.map rank ++ c :: u) ∨
  ∃ p a b u v, s.map rank = p ++ a :: u ∧ t.map rank = p ++ b :: v ∧ a < b

def Table.keys {α : Type} : Table α → List Str
  | .empty => []
  | .node k _ l r => l.keys ++ k :: r.keys

def Table.entries {α : Type} : Table α → List (Str × α)
  | .empty => []
  | .node k v l r => l.entries ++ (k, v) :: r.entries

/-- the table is in order -/
def Table.Ordered {α : Type} : Table α → Prop
  | .empty => True
  | .node k _ l r => (∀ x ∈ l.keys, before x k) ∧ (∀ x ∈ r.keys, before k x) ∧ l.Ordered ∧ r.Ordered

theorem caseless_rank (a b : Nat) :
    caseless a b = if rank a < rank b then .lt else if rank b < rank a then .gt else .eq := by
  unfold caseless rank cmpNat toLower
  by_cases h1 : a = 126
  · subst h1
    by_cases h2 : b = 126
    · subst h2; rfl
    · rw [if_neg (by tauto), if_pos rfl, if_pos rfl, if_neg h2]
      split_ifs <;> first | rfl | omega
  · by_cases h2 : b = 126
    · subst h2
      rw [if_neg (by tauto), if_neg h1, if_pos rfl, if_neg h1, if_pos rfl]
      split_ifs <;> first | rfl | omega
    · rw [if_neg (by tauto), if_neg h1, if_neg h2, if_neg h1, if_neg h2]
      split_ifs <;> first | rfl | omega

theorem rank_eq_iff (a b : Nat) : rank a = rank b ↔
    (if 65 ≤ a ∧ a ≤ 90 then a + 32 else a) = (if 65 ≤ b ∧ b ≤ 90 then b + 32 else b) := by
  unfold rank
  split_ifs <;> omega

theorem same_iff (s t : Str) : same s t ↔ s.map rank = t.map rank := by
  unfold same
  induction s generalizing t with
  | nil => cases t <;> simp
  | cons a s ih =>
    cases t with
    | nil => simp
    | cons b t => rw [List.map_cons, List.map_cons, List.map_cons, List.map_cons, List.cons.injEq, List.cons.injEq, ih,
        rank_eq_iff]

theorem before_cons {a b : Nat} {s t : Str} (h : rank a = rank b) : before (a :: s) (b :: t) ↔ before s t := by
  unfold before
  constructor
  · rintro (⟨c, u, h1⟩ | ⟨p, x, y, u, v, h1, h2, h3⟩)
    · left
      rw [List.map_cons, List.map_cons, List.cons_append, List.cons.injEq] at h1
      exact ⟨c, u, h1.2⟩
    · cases p with
      | nil =>
        rw [List.map_cons, List.nil_append, List.cons.injEq] at h1 h2
        omega
      | cons q p =>
        rw [List.map_cons, List.cons_append, List.cons.injEq] at h1 h2
        exact Or.inr ⟨p, x, y, u, v, h1.2, h2.2, h3⟩
  · rintro (⟨c, u, h1⟩ | ⟨p, x, y, u, v, h1, h2, h3⟩)
    · left
      exact ⟨c, u, by rw [List.map_cons, List.map_cons, h1, h]; rfl⟩
    · right
      exact ⟨rank a :: p, x, y, u, v, by rw [List.map_cons, h1]; rfl, by rw [List.map_cons, h2, h]; rfl, h3⟩

theorem before_lt {a b : Nat} {s t : Str} (h : rank a < rank b) : before (a :: s) (b :: t) :=
  Or.inr ⟨[], rank a, rank b, _, _, rfl, rfl, h⟩

theorem keycompare_spec (s t : Str) :
    (before s t → keycompare s t = .lt) ∧ (before t s → keycompare s t = .gt) ∧ (same s t → keycompare s t = .eq) ∧
    (before s t ∨ before t s ∨ same s t) := by
  induction s generalizing t with
  | nil =>
    cases t with
    | nil =>
      have hb : ¬ before [] [] := by
        rintro (⟨c, u, h⟩ | ⟨p, a, b, u, v, h, -, -⟩) <;> simp at h
      exact ⟨fun h => absurd h hb, fun h => absurd h hb, fun _ => rfl, Or.inr (Or.inr rfl)⟩
    | cons b t =>
      refine ⟨fun _ => rfl, ?_, ?_, Or.inl (Or.inl ⟨rank b, t.map rank, rfl⟩)⟩
      · rintro (⟨c, u, h⟩ | ⟨p, a, b, u, v, -, h, -⟩) <;> simp at h
      · intro h; cases h
  | cons a s ih =>
    cases t with
    | nil =>
      refine ⟨?_, fun _ => rfl, ?_, Or.inr (Or.inl (Or.inl ⟨rank a, s.map rank, rfl⟩))⟩
      · rintro (⟨c, u, h⟩ | ⟨p, a, b, u, v, -, h, -⟩) <;> simp at h
      · intro h; cases h
    | cons b t =>
      rw [keycompare, caseless_rank]
      obtain ⟨i1, i2, i3, i4⟩ := ih t
      rcases lt_trichotomy (rank a) (rank b) with h | h | h
      · rw [if_pos h]
        have hn : ¬ before (b :: t) (a :: s) := by
          rintro (⟨c, u, e⟩ | ⟨p, x, y, u, v, e1, e2, e3⟩)
          · rw [List.map_cons, List.map_cons, List.cons_append, List.cons.injEq] at e; omega
          · cases p with
            | nil => rw [List.map_cons, List.nil_append, List.cons.injEq] at e1 e2; omega
            | cons q p => rw [List.map_cons, List.cons_append, List.cons.injEq] at e1 e2; omega
        refine ⟨fun _ => rfl, fun h' => absurd h' hn, ?_, Or.inl (before_lt h)⟩
        intro e
        rw [same_iff, List.map_cons, List.map_cons, List.cons.injEq] at e
        omega
      · rw [if_neg (by omega), if_neg (by omega), before_cons h, before_cons h.symm]
        have hs : same (a :: s) (b :: t) ↔ same s t := by
          rw [same_iff, same_iff, List.map_cons, List.map_cons, List.cons.injEq]
          exact ⟨fun e => e.2, fun e => ⟨h, e⟩⟩
        rw [hs]
        exact ⟨i1, i2, i3, i4⟩
      · rw [if_neg (by omega), if_pos h]
        have hn : ¬ before (a :: s) (b :: t) := by
          rintro (⟨c, u, e⟩ | ⟨p, x, y, u, v, e1, e2, e3⟩)
          · rw [List.map_cons, List.map_cons, List.cons_append, List.cons.injEq] at e; omega
          · cases p with
            | nil => rw [List.map_cons, List.nil_append, List.cons.injEq] at e1 e2; omega
            | cons q p => rw [List.map_cons, List.cons_append, List.cons.injEq] at e1 e2; omega
        refine ⟨fun h' => absurd h' hn, fun _ => rfl, ?_, Or.inr (Or.inl (before_lt h))⟩
        intro e
        rw [same_iff, List.map_cons, List.map_cons, List.cons.injEq] at e
        omega

theorem before_same {s t k : Str} (h : same s t) : (before s k ↔ before t k) ∧ (before k s ↔ before k t) := by
  rw [same_iff] at h
  unfold before
  rw [h]
  exact ⟨Iff.rfl, Iff.rfl⟩

theorem entries_keys {α : Type} (t : Table α) : t.entries.map Prod.fst = t.keys := by
  induction t with
  | empty => rfl
  | node k v l r ihl ihr => simp [Table.entries, Table.keys, ihl, ihr]

/-- In an ordered index, an identifier is found exactly under the key that is the same up to case. -/
theorem C96_lookup {α : Type} (db : Table (List α)) (h : db.Ordered) (s : Str) :
    (∀ k v, (k, v) ∈ db.entries → same s k → lookup db s = v) ∧
    ((∀ k ∈ db.keys, ¬ same s k) → lookup db s = []) := by
  induction db with
  | empty => exact ⟨fun k v hm => by simp [Table.entries] at hm, fun _ => rfl⟩
  | node key value l r ihl ihr =>
    obtain ⟨h1, h2, h3, h4⟩ := h
    constructor
    · intro k v hm hs
      rw [Table.entries, List.mem_append, List.mem_cons] at hm
      rcases hm with hm | hm | hm
      · have hk : k ∈ l.keys := by rw [← entries_keys]; exact List.mem_map.mpr ⟨_, hm, rfl⟩
        rw [lookup, (keycompare_spec s key).1 ((before_same hs).1.mpr (h1 k hk))]
        exact (ihl h3).1 k v hm hs
      · obtain ⟨rfl, rfl⟩ := Prod.mk.inj hm
        rw [lookup, (keycompare_spec s k).2.2.1 hs]
      · have hk : k ∈ r.keys := by rw [← entries_keys]; exact List.mem_map.mpr ⟨_, hm, rfl⟩
        rw [lookup, (keycompare_spec s key).2.1 ((before_same hs).2.mpr (h2 k hk))]
        exact (ihr h4).1 k v hm hs
    · intro hn
      have hl := (ihl h3).2 (fun k hk => hn k (by simp [Table.keys, hk]))
      have hr := (ihr h4).2 (fun k hk => hn k (by simp [Table.keys, hk]))
      obtain ⟨c1, c2, c3, c4⟩ := keycompare_spec s key
      rcases c4 with c | c | c
      · rw [lookup, c1 c]; exact hl
      · rw [lookup, c2 c]; exact hr
      · exact absurd c (hn key (by simp [Table.keys]))

example : lookup (.node (chars "map") [1] (.node (chars "app") [2] .empty .empty) (.node (chars "Rev") [3] .empty .empty))
    (chars "rEv") = [3] ∧ keycompare (chars "~") (chars "A") = .lt ∧ keycompare (chars "~") (chars "^") = .gt := by decide

example : (Table.node (chars "map") [1] (.node (chars "~") [2] .empty .empty) (.node (chars "Rev") [3] .empty .empty)).Ordered := by
  refine ⟨?_, ?_, ⟨by simp [Table.keys], by simp [Table.keys], trivial, trivial⟩,
    ⟨by simp [Table.keys], by simp [Table.keys], trivial, trivial⟩⟩
  · intro x hx
    rw [show x = chars "~" by simpa [Table.keys] using hx]
    exact Or.inr ⟨[], 193, 218, _, _, rfl, rfl, by decide⟩
  · intro x hx
    rw [show x = chars "Rev" by simpa [Table.keys] using hx]
    exact Or.inr ⟨[], 218, 228, _, _, rfl, rfl, by decide⟩

/-! ## searching -/

theorem eqAt_iff (s str : Str) : eqAt s str = true ↔ ∃ m t, str = m ++ t ∧ m.map toLower = s := by
  induction s generalizing str with
  | nil => exact ⟨fun _ => ⟨[], str, rfl, rfl⟩, fun _ => by cases str <;> rfl⟩
  | cons c s ih =>
    cases str with
    | nil =>
      constructor
      · intro h; cases h
      · rintro ⟨m, t, h1, h2⟩
        rw [List.nil_eq_append_iff] at h1
        rw [h1.1] at h2; cases h2
    | cons d str =>
      rw [eqAt, Bool.and_eq_true, decide_eq_true_iff, ih]
      constructor
      · rintro ⟨rfl, m, t, rfl, rfl⟩; exact ⟨d :: m, t, rfl, rfl⟩
      · rintro ⟨m, t, h1, h2⟩
        cases m with
        | nil => cases h2
        | cons e m =>
          rw [List.cons_append, List.cons.injEq] at h1
          rw [List.map_cons, List.cons.injEq] at h2
          exact ⟨by rw [h1.1, h2.1], m, t, h1.2, h2.2⟩

theorem cmp_iff (s str : Str) (n k : Nat) : cmp s str n k = true ↔ ∃ j, k ≤ j ∧ j < k + n ∧ eqAt s (str.drop j) = true := by
  induction n generalizing k with
  | zero => exact ⟨fun h => absurd h (by simp [cmp]), fun ⟨j, h1, h2, _⟩ => by omega⟩
  | succ n ih =>
    rw [cmp, Bool.or_eq_true, ih]
    constructor
    · rintro (h | ⟨j, h1, h2, h3⟩)
      · exact ⟨k, le_rfl, by omega, h⟩
      · exact ⟨j, by omega, by omega, h3⟩
    · rintro ⟨j, h1, h2, h3⟩
      by_cases hj : j = k
      · subst hj; exact Or.inl h3
      · exact Or.inr ⟨j, by omega, by omega, h3⟩

/-- `line` contains `s`, up to the case of the line's letters -/
def Contains (s line : Str) : Prop :=
  ∃ p m t, line = p ++ (m ++ t) ∧ m.map (fun c => if 65 ≤ c ∧ c ≤ 90 then c + 32 else c) = s

theorem instr_iff (s line : Str) : instr s line = true ↔ Contains s line := by
  unfold instr
  constructor
  · intro h
    split at h
    · rw [cmp_iff] at h
      obtain ⟨j, -, -, h3⟩ := h
      obtain ⟨m, t, h4, h5⟩ := (eqAt_iff _ _).mp h3
      exact ⟨line.take j, m, t, by rw [← h4, List.take_append_drop], h5⟩
    · cases h
  · rintro ⟨p, m, t, rfl, hm⟩
    have hl : s.length = m.length := by rw [← hm, List.length_map]
    rw [if_pos (by simp only [List.length_append]; omega), cmp_iff]
    refine ⟨p.length, by omega, by simp only [List.length_append]; omega, ?_⟩
    rw [List.drop_left]
    exact (eqAt_iff _ _).mpr ⟨m, t, rfl, hm⟩

theorem findFrom_spec (s : Str) (strs : List Str) (curr n i : Nat) :
    (∀ l, findFrom s strs curr n i = some l → ∃ j, i ≤ j ∧ j < i + n ∧ l = (j + curr) % strs.length ∧
      instr s (strs.getD l []) = true ∧ ∀ j', i ≤ j' → j' < j → instr s (strs.getD ((j' + curr) % strs.length) []) = false) ∧
    (findFrom s strs curr n i = none → ∀ j, i ≤ j → j < i + n →
      instr s (strs.getD ((j + curr) % strs.length) []) = false) := by
  induction n generalizing i with
  | zero => exact ⟨fun l h => absurd h (by simp [findFrom]), fun _ j h1 h2 => by omega⟩
  | succ n ih =>
    rw [findFrom]
    cases hc : instr s (strs.getD ((i + curr) % strs.length) []) with
    | true =>
      rw [if_pos rfl]
      refine ⟨fun l h => ?_, fun h => by cases h⟩
      cases h
      exact ⟨i, le_rfl, by omega, rfl, hc, fun j' h1 h2 => by omega⟩
    | false =>
      rw [if_neg (by decide)]
      obtain ⟨i1, i2⟩ := ih (i + 1)
      constructor
      · intro l h
        obtain ⟨j, h1, h2, h3, h4, h5⟩ := i1 l h
        refine ⟨j, by omega, by omega, h3, h4, fun j' h6 h7 => ?_⟩
        by_cases hj : j' = i
        · subst hj; exact hc
        · exact h5 j' (by omega) h7
      · intro h j h1 h2
        by_cases hj : j = i
        · subst hj; exact hc
        · exact i2 h j (by omega) (by omega)

/-- The search goes cyclically through all lines from the one after those displayed, up to case, and stops at
the first that contains the string; it fails only if no line contains it. -/
theorem C96_search (s : Str) (strs : List Str) (curr : Nat) :
    (∀ l, findline s strs curr = some l → ∃ h : l < strs.length, Contains s strs[l] ∧
      ∃ j, j < strs.length ∧ l = (curr + j) % strs.length ∧
        ∀ j' < j, ∀ h' : (curr + j') % strs.length < strs.length, ¬ Contains s strs[(curr + j') % strs.length]) ∧
    (findline s strs curr = none ↔ ∀ line ∈ strs, ¬ Contains s line) := by
  obtain ⟨h1, h2⟩ := findFrom_spec s strs curr strs.length 0
  have hget : ∀ l (h : l < strs.length), strs.getD l [] = strs[l] := by
    intro l h; simp [List.getElem?_eq_getElem h]
  have hsome : ∀ l, findline s strs curr = some l → ∃ h : l < strs.length, Contains s strs[l] ∧
      ∃ j, j < strs.length ∧ l = (curr + j) % strs.length ∧
        ∀ j' < j, ∀ h' : (curr + j') % strs.length < strs.length, ¬ Contains s strs[(curr + j') % strs.length] := by
    intro l h
    obtain ⟨j, -, a2, a3, a4, a5⟩ := h1 l h
    have hl : l < strs.length := by rw [a3]; exact Nat.mod_lt _ (by omega)
    refine ⟨hl, ?_, j, by omega, by rw [a3, Nat.add_comm], ?_⟩
    · rw [hget l hl] at a4
      exact (instr_iff _ _).mp a4
    · intro j' hj' h' hc
      have := a5 j' (by omega) hj'
      rw [Nat.add_comm j' curr, hget _ h', (instr_iff _ _).mpr hc] at this
      cases this
  refine ⟨hsome, ?_, ?_⟩
  · intro h line hm hc
    obtain ⟨l, hl, e⟩ := List.getElem_of_mem hm
    have hpos : 0 < strs.length := by omega
    -- the step at which line l is looked at
    let j := (l + (strs.length - curr % strs.length)) % strs.length
    have hj : j < strs.length := Nat.mod_lt _ hpos
    have hjl : (j + curr) % strs.length = l := by
      have hc := Nat.mod_lt curr hpos
      show ((l + (strs.length - curr % strs.length)) % strs.length + curr) % strs.length = l
      rw [Nat.mod_add_mod, Nat.add_mod_eq_add_mod_left _ (Nat.mod_mod curr strs.length).symm,
        show l + (strs.length - curr % strs.length) + curr % strs.length = l + strs.length by omega,
        Nat.add_mod_right, Nat.mod_eq_of_lt hl]
    have := h2 h j (by omega) (by omega)
    rw [hjl, hget l hl, e, (instr_iff _ _).mpr hc] at this
    cases this
  · intro h
    cases hf : findline s strs curr with
    | none => rfl
    | some l =>
      obtain ⟨hl, hc, -⟩ := hsome l hf
      exact absurd hc (h _ (List.getElem_mem hl))

example : findline (chars "x") [chars "aX", chars "b", chars "xx"] 1 = some 2 ∧
    findline (chars "x") [chars "aX", chars "b", chars "xx"] 3 = some 0 := by decide

/-! ## moving -/

theorem min_def' (x y : Int) : (min x y = x ∧ x ≤ y) ∨ (min x y = y ∧ y ≤ x) := by
  unfold min; split <;> omega
theorem max_def' (x y : Int) : (max x y = x ∧ y ≤ x) ∨ (max x y = y ∧ x ≤ y) := by
  unfold max; split <;> omega

theorem nextpart_spec (lines first amount : Int) (ha : 2 ≤ amount) (hl : amount ≤ lines) :
    ∃ a b, nextpart lines first amount = (a, b) ∧ 0 ≤ a ∧ a < b ∧ b ≤ lines ∧ b - a ≤ amount ∧
      (0 ≤ first → a ≤ first) ∧ (first < lines → first < b) ∧
      (0 ≤ first → first + amount ≤ lines → a = first ∧ b = first + amount) ∧ (first ≤ 0 → a = 0 ∧ b = amount) := by
  unfold nextpart
  refine ⟨_, _, rfl, ?_⟩
  rcases min_def' (lines - amount + 1) first with ⟨h1, h2⟩ | ⟨h1, h2⟩ <;> rw [h1]
  · rcases max_def' 0 (lines - amount + 1) with ⟨h3, h4⟩ | ⟨h3, h4⟩ <;> rw [h3]
    · omega
    · rcases min_def' (lines - amount + 1 + amount) lines with ⟨h5, h6⟩ | ⟨h5, h6⟩ <;> rw [h5] <;> omega
  · rcases max_def' 0 first with ⟨h3, h4⟩ | ⟨h3, h4⟩ <;> rw [h3]
    · rcases min_def' (0 + amount) lines with ⟨h5, h6⟩ | ⟨h5, h6⟩ <;> rw [h5] <;> omega
    · rcases min_def' (first + amount) lines with ⟨h5, h6⟩ | ⟨h5, h6⟩ <;> rw [h5] <;> omega

theorem portion_ge (d : Int) : 4 ≤ portion d := by
  unfold portion
  rcases max_def' d 5 with ⟨h1, h2⟩ | ⟨h1, h2⟩ <;> omega

/-- A file that fits is shown completely; of another, a screenful that contains the line asked for. -/
theorem C96_start (d : Int) (strs : List Str) (c : Int) :
    ((strs.length : Int) ≤ portion d → start (portion d) strs c = (0, (strs.length : Int), false)) ∧
    (portion d < strs.length → ∃ a b, start (portion d) strs c = (a, b, true) ∧ 0 ≤ a ∧ a < b ∧ b ≤ strs.length ∧
      b - a ≤ portion d ∧ (0 ≤ c → c < strs.length → a ≤ c ∧ c < b)) := by
  have hp := portion_ge d
  constructor
  · intro h
    unfold start
    simp only []
    rw [if_pos h]
  · intro h
    obtain ⟨a, b, e, h1, h2, h3, h4, h5, h6, h7, h8⟩ := nextpart_spec strs.length (c - portion d / 2) (portion d)
      (by omega) (by omega)
    refine ⟨a, b, ?_, h1, h2, h3, h4, ?_⟩
    · unfold start
      simp only []
      rw [if_neg (by omega), e]
    · intro hc0 hc1
      by_cases hs : c - portion d / 2 ≤ 0
      · have := h8 hs; omega
      · by_cases ht : c - portion d / 2 + portion d ≤ strs.length
        · have := h7 (by omega) ht; omega
        · unfold nextpart at e
          simp only [Prod.mk.injEq] at e
          obtain ⟨e1, e2⟩ := e
          rcases min_def' (strs.length - portion d + 1) (c - portion d / 2) with ⟨g1, g2⟩ | ⟨g1, g2⟩ <;>
            rw [g1] at e1 e2
          · rcases max_def' 0 (strs.length - portion d + 1) with ⟨g3, g4⟩ | ⟨g3, g4⟩ <;> rw [g3] at e1 e2
            · omega
            · rcases min_def' (strs.length - portion d + 1 + portion d) strs.length with ⟨g5, g6⟩ | ⟨g5, g6⟩ <;>
                rw [g5] at e2 <;> omega
          · rcases max_def' 0 (c - portion d / 2) with ⟨g3, g4⟩ | ⟨g3, g4⟩ <;> rw [g3] at e1 e2
            · omega
            · rcases min_def' (c - portion d / 2 + portion d) strs.length with ⟨g5, g6⟩ | ⟨g5, g6⟩ <;>
                rw [g5] at e2 <;> omega

/-- The display keeps one line for the prompt, and at least four lines are shown however small it is; the line asked
for stands in the middle where the file has enough lines on both sides of it. -/
theorem C96_centre (d : Int) (strs : List Str) (c : Int) (hl : portion d < strs.length) :
    (5 ≤ d → portion d = d - 1) ∧ (d ≤ 5 → portion d = 4) ∧
    (portion d / 2 ≤ c → c - portion d / 2 + portion d ≤ strs.length →
      start (portion d) strs c = (c - portion d / 2, c - portion d / 2 + portion d, true)) := by
  refine ⟨fun h => by unfold portion; rcases max_def' d 5 with ⟨g, k⟩ | ⟨g, k⟩ <;> omega,
    fun h => by unfold portion; rcases max_def' d 5 with ⟨g, k⟩ | ⟨g, k⟩ <;> omega, ?_⟩
  intro h1 h2
  have hp := portion_ge d
  generalize portion d = p at *
  have e1 : max 0 (min ((strs.length : Int) - p + 1) (c - p / 2)) = c - p / 2 := by
    rcases min_def' ((strs.length : Int) - p + 1) (c - p / 2) with ⟨g, k⟩ | ⟨g, k⟩ <;> rw [g]
    · rcases max_def' 0 ((strs.length : Int) - p + 1) with ⟨g', k'⟩ | ⟨g', k'⟩ <;> omega
    · rcases max_def' 0 (c - p / 2) with ⟨g', k'⟩ | ⟨g', k'⟩ <;> omega
  have e2 : min (c - p / 2 + p) (strs.length : Int) = c - p / 2 + p := by
    rcases min_def' (c - p / 2 + p) (strs.length : Int) with ⟨g, k⟩ | ⟨g, k⟩ <;> omega
  simp only [start, nextpart, e1, e2]
  rw [if_neg (by omega)]

example : start (portion 24) (List.replicate 100 []) 50 = (39, 62, true) ∧
    start (portion 24) (List.replicate 20 []) 10 = (0, 20, false) := by decide

/-- `t` shows the top and `b` the bottom of the file; `u` moves up by half a screen; `d` and an empty line
move down, by half a screen and a screen at most, without passing over a line and until the end is shown;
`q` and the end of the input end the browser. The search string is not changed. -/
theorem C96_move (d : Int) (strs : List Str) (next : Nat) (so : Option Str) (rest : Str)
    (hl : portion d < strs.length) (hn : next ≤ strs.length) :
    wait (portion d) strs next so (116 :: rest) = .shows 0 (portion d) so ∧
    wait (portion d) strs next so (98 :: rest) = .shows (strs.length - portion d) strs.length so ∧
    (3 * portion d / 2 ≤ next →
      wait (portion d) strs next so (117 :: rest) =
        .shows (next - portion d - portion d / 2) (next - portion d / 2) so) ∧
    (next < strs.length → ∃ a b, wait (portion d) strs next so (100 :: rest) = .shows a b so ∧
      0 ≤ a ∧ a ≤ next ∧ next < b ∧ b ≤ strs.length ∧ b - a ≤ portion d / 2 ∧
      (next + portion d / 2 ≤ strs.length → b = next + portion d / 2)) ∧
    (next < strs.length → ∃ a b, wait (portion d) strs next so [10] = .shows a b so ∧
      0 ≤ a ∧ a ≤ next ∧ next < b ∧ b ≤ strs.length ∧ b - a ≤ portion d ∧
      (next + portion d ≤ strs.length → b = next + portion d)) ∧
    wait (portion d) strs next so (113 :: rest) = .quit ∧ wait (portion d) strs next so [] = .quit := by
  have hp := portion_ge d
  refine ⟨?_, ?_, ?_, ?_, ?_, rfl, rfl⟩
  · obtain ⟨a, b, e, -, -, -, -, -, -, -, h8⟩ := nextpart_spec strs.length 0 (portion d) (by omega) (by omega)
    obtain ⟨rfl, rfl⟩ := h8 le_rfl
    show Step.shows (nextpart strs.length 0 (portion d)).1 (nextpart strs.length 0 (portion d)).2 so = _
    rw [e]
  · obtain ⟨a, b, e, -, -, -, -, -, -, h7, -⟩ := nextpart_spec strs.length (strs.length - portion d) (portion d)
      (by omega) (by omega)
    obtain ⟨rfl, rfl⟩ := h7 (by omega) (by omega)
    show Step.shows (nextpart strs.length (strs.length - portion d) (portion d)).1
      (nextpart strs.length (strs.length - portion d) (portion d)).2 so = _
    rw [e]
    simp
  · intro h
    obtain ⟨a, b, e, -, -, -, -, -, -, h7, -⟩ := nextpart_spec strs.length (next - 3 * portion d / 2) (portion d)
      (by omega) (by omega)
    obtain ⟨rfl, rfl⟩ := h7 (by omega) (by omega)
    show Step.shows (nextpart strs.length (next - 3 * portion d / 2) (portion d)).1
      (nextpart strs.length (next - 3 * portion d / 2) (portion d)).2 so = _
    rw [e]
    simp only [Step.shows.injEq, and_true]
    omega
  · intro h
    obtain ⟨a, b, e, h1, h2, h3, h4, h5, h6, h7, -⟩ := nextpart_spec strs.length next (portion d / 2)
      (by omega) (by omega)
    refine ⟨a, b, ?_, h1, h5 (by omega), h6 (by omega), h3, h4, fun h8 => (h7 (by omega) h8).2⟩
    show (if (next : Int) = strs.length then _ else Step.shows (nextpart strs.length next (portion d / 2)).1
      (nextpart strs.length next (portion d / 2)).2 so) = _
    rw [if_neg (by omega), e]
  · intro h
    obtain ⟨a, b, e, h1, h2, h3, h4, h5, h6, h7, -⟩ := nextpart_spec strs.length next (portion d)
      (by omega) (by omega)
    refine ⟨a, b, ?_, h1, h5 (by omega), h6 (by omega), h3, h4, fun h8 => (h7 (by omega) h8).2⟩
    show (if (next : Int) = strs.length then _ else Step.shows (nextpart strs.length next (portion d)).1
      (nextpart strs.length next (portion d)).2 so) = _
    rw [if_neg (by omega), e]

example : wait (portion 24) (List.replicate 100 []) 50 none (chars "u\n") = .shows 16 39 none ∧
    wait (portion 24) (List.replicate 100 []) 50 none (chars "d\n") = .shows 50 61 none := by decide

/-- `/str` searches for the string and `n` for the last one, in both cases from the line after those
displayed; the line found is displayed. Missing: `n` passes over occurrences that are displayed already,
see `C96_next_violation`. -/
theorem C96_find_partial (d : Int) (strs : List Str) (next : Nat) (so : Option Str) (s rest : Str)
    (hl : portion d < strs.length) (hs : 10 ∉ s) :
    wait (portion d) strs next so (47 :: (s ++ 10 :: rest)) = find (portion d) strs next (s.map toLower) ∧
    wait (portion d) strs next (some s) (110 :: rest) = find (portion d) strs next s ∧
    wait (portion d) strs next none (110 :: rest) = .message none ∧
    (findline s strs next = none → find (portion d) strs next s = .message (some s)) ∧
    (∀ l, findline s strs next = some l → ∃ a b, find (portion d) strs next s = .shows a b (some s) ∧
      a ≤ l ∧ (l : Int) < b) := by
  have hnorm : ∀ s : Str, 10 ∉ s → normalize (s ++ 10 :: rest) = s.map toLower := by
    intro s
    induction s with
    | nil => intro _; rfl
    | cons c s ih =>
      intro h
      rw [List.mem_cons, not_or] at h
      rw [List.cons_append, normalize, if_neg (fun e => h.1 e.symm), ih h.2]
      rfl
  refine ⟨?_, rfl, rfl, ?_, ?_⟩
  · show find (portion d) strs next (normalize (s ++ 10 :: rest)) = _
    rw [hnorm s hs]
  · intro h; unfold find; rw [h]
  · intro l h
    obtain ⟨hll, -⟩ := (C96_search s strs next).1 l h
    obtain ⟨a, b, e, -, -, -, -, hc⟩ := (C96_start d strs l).2 hl
    refine ⟨a, b, ?_, hc (by omega) (by omega)⟩
    unfold find
    rw [h]
    unfold start at e
    simp only [] at e
    rw [if_neg (by omega)] at e
    simp only [Prod.mk.injEq] at e
    simp only [e.1, e.2.1]

example : wait (portion 24) (List.replicate 60 [] ++ [chars "aBc"] ++ List.replicate 40 []) 23 none (chars "/B\n") =
    .shows 49 72 (some (chars "b")) := by decide +kernel

/-- Finding: Help.sig: "n  search for next occurrence of str". After an occurrence has been found, `n` goes on
behind the last line displayed, not behind the occurrence: here lines 30 and 31 contain the string, and `n`
after line 30 leads to line 30 again. -/
theorem C96_next_violation :
    let strs := List.replicate 30 [] ++ [chars "x", chars "x"] ++ List.replicate 60 []
    wait (portion 24) strs 23 none (chars "/x\n") = .shows 19 42 (some (chars "x")) ∧
    findline (chars "x") strs 23 = some 30 ∧ findline (chars "x") strs 42 = some 30 ∧
    wait (portion 24) strs 42 (some (chars "x")) (chars "n\n") = .shows 19 42 (some (chars "x")) := by
  decide +kernel

/-! ## choosing -/

theorem digits_spec (lim : Nat) (ds t : Str) (hd : ∀ c ∈ ds, 48 ≤ c ∧ c ≤ 57) (ht : ∀ c ∈ t.head?, ¬ (48 ≤ c ∧ c ≤ 57))
    (r : Nat) :
    (ds.foldl (fun a c => 10 * a + (c - 48)) r < lim →
      digits lim (ds ++ t) r = some (ds.foldl (fun a c => 10 * a + (c - 48)) r)) ∧
    (lim ≤ ds.foldl (fun a c => 10 * a + (c - 48)) r → r < lim → digits lim (ds ++ t) r = none) := by
  have mono : ∀ (ds : Str) (r : Nat), r ≤ ds.foldl (fun a c => 10 * a + (c - 48)) r := by
    intro ds
    induction ds with
    | nil => intro r; exact le_rfl
    | cons c ds ih => intro r; rw [List.foldl_cons]; have := ih (10 * r + (c - 48)); omega
  induction ds generalizing r with
  | nil =>
    refine ⟨fun _ => ?_, fun h1 h2 => ?_⟩
    · cases t with
      | nil => rfl
      | cons c t =>
        have := ht c (by simp)
        rw [List.nil_append, digits, if_neg (by simp [isDigit]; omega)]
        rfl
    · rw [List.foldl_nil] at h1; omega
  | cons c ds ih =>
    have hc := hd c (by simp)
    have hdig : isDigit c = true := by simp [isDigit, hc]
    rw [List.foldl_cons, List.cons_append, digits, if_pos hdig, Nat.add_comm (c - 48) (10 * r)]
    obtain ⟨i1, i2⟩ := ih (fun x hx => hd x (by simp [hx])) (10 * r + (c - 48))
    have hm := mono ds (10 * r + (c - 48))
    constructor
    · intro h
      rw [if_pos (by omega)]
      exact i1 h
    · intro h _
      by_cases hlt : 10 * r + (c - 48) < lim
      · rw [if_pos hlt]; exact i2 h hlt
      · rw [if_neg hlt]

theorem skipWS_spec (ws : Str) (c : Nat) (t : Str) (h : ∀ x ∈ ws, x = 32 ∨ (9 ≤ x ∧ x ≤ 13))
    (hc : 48 ≤ c ∧ c ≤ 57) : skipWS (ws ++ c :: t) = c :: t := by
  induction ws with
  | nil => rw [List.nil_append, skipWS, if_neg (by simp [isSpace]; omega)]
  | cons w ws ih =>
    rw [List.cons_append, skipWS, if_pos (by have := h w (by simp); simp [isSpace]; omega),
      ih (fun x hx => h x (by simp [hx]))]

/-- A number chooses the entry of the menu that has this number; 0 leaves the menu, and a number for which
there is no entry, however large, makes the question be repeated. -/
theorem C96_choose (lim n : Nat) (hn : n < lim) (h9 : 10 ≤ lim) (ws ds t : Str) (hne : ds ≠ [])
    (hw : ∀ x ∈ ws, x = 32 ∨ (9 ≤ x ∧ x ≤ 13)) (hd : ∀ c ∈ ds, 48 ≤ c ∧ c ≤ 57)
    (ht : ∀ c ∈ t.head?, ¬ (48 ≤ c ∧ c ≤ 57)) :
    choose lim n (ws ++ (ds ++ t)) =
      (let v := ds.foldl (fun a c => 10 * a + (c - 48)) 0
       if v = 0 then .quit else if v ≤ n then .pick (v - 1) else .again) ∧
    choose lim n [] = .quit ∧ choose lim n [10] = .quit ∧ choose lim n (113 :: t) = .quit := by
  refine ⟨?_, rfl, rfl, rfl⟩
  obtain ⟨c, ds, rfl⟩ := List.exists_cons_of_ne_nil hne
  have hc := hd c (by simp)
  have hdig : isDigit c = true := by simp [isDigit, hc]
  obtain ⟨s1, s2⟩ := digits_spec lim ds t (fun x hx => hd x (by simp [hx])) ht (c - 48)
  unfold choose
  rw [List.cons_append, skipWS_spec ws c (ds ++ t) hw hc]
  simp only [hdig, if_true, List.foldl_cons, Nat.mul_zero, Nat.zero_add]
  by_cases hv : ds.foldl (fun a c => 10 * a + (c - 48)) (c - 48) < lim
  · rw [s1 hv]
    simp only []
    generalize ds.foldl (fun a c => 10 * a + (c - 48)) (c - 48) = v at *
    by_cases h0 : v = 0
    · rw [if_pos h0, if_pos h0]
    · rw [if_neg h0, if_neg h0]
      by_cases h1 : v ≤ n
      · rw [if_pos h1, if_pos (by omega)]
      · rw [if_neg h1, if_neg (by omega)]
  · rw [s2 (by omega) (by omega)]
    simp only []
    rw [if_neg (by omega), if_neg (by omega)]

example : choose 4611686018427387904 3 (chars " 2\n") = .pick 1 ∧
    choose 4611686018427387904 3 (chars "99999999999999999999999\n") = .again := by decide +kernel

/-- Help on an identifier other than "lib": the first special file for it in lower case, or else the entries
of all index files, a single one directly and several in a menu. -/
theorem C96_help_partial {α : Type} (special : List (Str × Str)) (dbs : List (Table (List α))) (id : Str)
    (h0 : id ≠ []) (h1 : id ≠ chars "lib") (hnl : 10 ∉ id) :
    (∀ pre f post, special = pre ++ (id.map toLower, f) :: post → (∀ x ∈ pre, x.1 ≠ id.map toLower) →
      help special dbs id = .file f) ∧
    ((∀ x ∈ special, x.1 ≠ id.map toLower) →
      help special dbs id =
        match (dbs.reverse.map fun db => lookup db (id.map toLower)).flatten with
        | [] => .noHelp
        | [e] => .entry e
        | es => .menu es) ∧
    help special dbs [] = .welcome := by
  have hnorm : ∀ s : Str, 10 ∉ s → normalize s = s.map toLower := by
    intro s
    induction s with
    | nil => intro _; rfl
    | cons c s ih =>
      intro h
      rw [List.mem_cons, not_or] at h
      rw [normalize, if_neg (fun e => h.1 e.symm), ih h.2]
      rfl
  have hstart : help special dbs id = help.tryspecial dbs (id.map toLower) special := by
    unfold help
    rw [if_neg h0, if_neg h1, hnorm id hnl]
  rw [hstart]
  refine ⟨?_, ?_, rfl⟩
  · rintro pre f post rfl hp
    clear hstart
    induction pre with
    | nil => rw [List.nil_append, help.tryspecial, if_pos rfl]
    | cons x pre ih =>
      obtain ⟨t, g⟩ := x
      rw [List.cons_append, help.tryspecial, if_neg (hp (t, g) (by simp)), ih (fun y hy => hp y (by simp [hy]))]
  · intro hp
    clear hstart
    induction special with
    | nil =>
      have hf : ∀ (dbs : List (Table (List α))) (acc : List (List α)),
          dbs.foldl (fun res db => lookup db (id.map toLower) :: res) acc =
            (dbs.reverse.map fun db => lookup db (id.map toLower)) ++ acc := by
        intro dbs
        induction dbs with
        | nil => intro acc; rfl
        | cons db dbs ih => intro acc; rw [List.foldl_cons, ih]; simp
      rw [help.tryspecial, hf, List.append_nil]
      generalize (List.map (fun db => lookup db (List.map toLower id)) dbs.reverse).flatten = l
      rcases l with _ | ⟨a, _ | ⟨b, l⟩⟩ <;> rfl
    | cons x special ih =>
      obtain ⟨t, g⟩ := x
      rw [help.tryspecial, if_neg (hp (t, g) (by simp)), ih (fun y hy => hp y (by simp [hy]))]

example : help [(chars "tools", chars "TOOLS")] ([] : List (Table (List Nat))) (chars "Tools") = .file (chars "TOOLS") := by
  decide

/-- Finding: a file that `specialfiles` assigns to the term "lib" is ignored for `help "lib"`, though not for
`help "Lib"`. -/
theorem C96_lib_violation {α : Type} (f : Str) (rest : List (Str × Str)) (dbs : List (Table (List α))) :
    help ((chars "lib", f) :: rest) dbs (chars "lib") = .file (chars "README") ∧
    help ((chars "lib", f) :: rest) dbs (chars "Lib") = .file f := by
  refine ⟨rfl, ?_⟩
  have := (C96_help_partial ((chars "lib", f) :: rest) dbs (chars "Lib") (by decide) (by decide) (by decide)).1
    [] f rest (by rw [show (chars "Lib").map toLower = chars "lib" by decide]; rfl) (by simp)
  exact this

example : help [(chars "lib", chars "MINE")] ([] : List (Table (List Nat))) (chars "lib") = .file (chars "README") := by
  decide

end Mosml.Help
