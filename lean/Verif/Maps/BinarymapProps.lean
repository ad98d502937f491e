import Verif.Maps.Binarymap

/-!
C38: Binarymap and Intmap are finite maps.
-/
namespace Mosml.Maps.Binarymap
open Tree
variable {K V : Type}

/-- the items of a tree from left to right -/
def flat : Tree K V → List (K × V)
  | E => []
  | T k v _ l r => flat l ++ (k, v) :: flat r

/-- every count is the number of items below -/
def Sized : Tree K V → Prop
  | E => True
  | T _ _ c l r => c = 1 + (flat l).length + (flat r).length ∧ Sized l ∧ Sized r

theorem size_eq {t : Tree K V} (h : Sized t) : treeSize t = (flat t).length := by
  cases t with
  | E => rfl
  | T k v c l r =>
    simp only [treeSize, flat, List.length_append, List.length_cons, h.1]
    push_cast
    omega

theorem N_ok (k : K) (v : V) {l r : Tree K V} (hl : Sized l) (hr : Sized r) :
    Sized (N k v l r) ∧ flat (N k v l r) = flat l ++ (k, v) :: flat r := by
  have h1 := size_eq hl
  have h2 := size_eq hr
  have e : N k v l r = T k v (1 + treeSize l + treeSize r) l r := by
    cases l <;> cases r <;> simp [N, treeSize]
  rw [e]
  exact ⟨⟨by rw [h1, h2], hl, hr⟩, rfl⟩

theorem single_L_ok (k : K) (v : V) {l r : Tree K V} (hl : Sized l) (hr : Sized r) (ne : r ≠ E) :
    ∃ t, single_L k v l r = some t ∧ Sized t ∧ flat t = flat l ++ (k, v) :: flat r := by
  cases r with
  | E => exact absurd rfl ne
  | T b bv c y z =>
    obtain ⟨h1, h2⟩ := N_ok k v hl hr.2.1
    obtain ⟨h3, h4⟩ := N_ok b bv h1 hr.2.2
    exact ⟨_, rfl, h3, by rw [h4, h2]; simp [flat]⟩

theorem single_R_ok (k : K) (v : V) {l r : Tree K V} (hl : Sized l) (hr : Sized r) (ne : l ≠ E) :
    ∃ t, single_R k v l r = some t ∧ Sized t ∧ flat t = flat l ++ (k, v) :: flat r := by
  cases l with
  | E => exact absurd rfl ne
  | T b bv c y z =>
    obtain ⟨h1, h2⟩ := N_ok k v hl.2.2 hr
    obtain ⟨h3, h4⟩ := N_ok b bv hl.2.1 h1
    exact ⟨_, rfl, h3, by rw [h4, h2]; simp [flat]⟩

theorem double_L_ok (k : K) (v : V) {l : Tree K V} {b : K} {bv : V} {c : Int} {y z : Tree K V} (hl : Sized l)
    (hr : Sized (T b bv c y z)) (ne : y ≠ E) :
    ∃ t, double_L k v l (T b bv c y z) = some t ∧ Sized t ∧ flat t = flat l ++ (k, v) :: flat (T b bv c y z) := by
  cases y with
  | E => exact absurd rfl ne
  | T d dv e x y =>
    obtain ⟨h1, h2⟩ := N_ok k v hl hr.2.1.2.1
    obtain ⟨h3, h4⟩ := N_ok b bv hr.2.1.2.2 hr.2.2
    obtain ⟨h5, h6⟩ := N_ok d dv h1 h3
    exact ⟨_, rfl, h5, by rw [h6, h2, h4]; simp [flat]⟩

theorem double_R_ok (k : K) (v : V) {r : Tree K V} {b : K} {bv : V} {c : Int} {y z : Tree K V} (hl : Sized (T b bv c y z))
    (hr : Sized r) (ne : z ≠ E) :
    ∃ t, double_R k v (T b bv c y z) r = some t ∧ Sized t ∧ flat t = flat (T b bv c y z) ++ (k, v) :: flat r := by
  cases z with
  | E => exact absurd rfl ne
  | T d dv e x w =>
    obtain ⟨h1, h2⟩ := N_ok b bv hl.2.1 hl.2.2.2.1
    obtain ⟨h3, h4⟩ := N_ok k v hl.2.2.2.2 hr
    obtain ⟨h5, h6⟩ := N_ok d dv h1 h3
    exact ⟨_, rfl, h5, by rw [h6, h2, h4]; simp [flat]⟩

theorem pos_of_ne {t : Tree K V} (h : Sized t) (ne : t ≠ E) : 0 < treeSize t := by
  cases t with
  | E => exact absurd rfl ne
  | T => simp only [treeSize, h.1]; omega

theorem ne_of_pos {t : Tree K V} (h : 0 < treeSize t) : t ≠ E := by
  rintro rfl; simp [treeSize] at h

/-- the smart constructor never fails, keeps the order and the counts -/
theorem T'_ok (k : K) (v : V) {l r : Tree K V} (hl : Sized l) (hr : Sized r) :
    ∃ t, T' k v l r = some t ∧ Sized t ∧ flat t = flat l ++ (k, v) :: flat r := by
  unfold T'
  split
  · exact ⟨_, rfl, by simp [Sized, flat], rfl⟩
  · refine ⟨_, rfl, ?_, rfl⟩
    simp only [Sized, flat, List.length_nil] at *; simp; omega
  · refine ⟨_, rfl, ?_, rfl⟩
    simp only [Sized, flat, List.length_nil] at *; simp; omega
  · exact double_L_ok k v hl hr (by simp)
  · exact double_R_ok k v hl hr (by simp)
  · split
    · exact single_L_ok k v hl hr (by simp)
    · exact double_L_ok k v hl hr (by simp)
  · split
    · exact single_R_ok k v hl hr (by simp)
    · exact double_R_ok k v hl hr (by simp)
  · exact single_L_ok k v hl hr (by simp)
  · exact single_R_ok k v hl hr (by simp)
  · rename_i lk lv ln ll lr rk rv rn rl rr
    have s1 := size_eq hr.2.1
    have s2 := size_eq hr.2.2
    have s3 := size_eq hl.2.1
    have s4 := size_eq hl.2.2
    have c1 := hl.1
    have c2 := hr.1
    split
    · rename_i h1
      dsimp only
      split
      · exact single_L_ok k v hl hr (by simp)
      · refine double_L_ok k v hl hr (ne_of_pos ?_)
        unfold wt at h1; omega
    · split
      · rename_i h1
        dsimp only
        split
        · exact single_R_ok k v hl hr (by simp)
        · refine double_R_ok k v hl hr (ne_of_pos ?_)
          unfold wt at h1; omega
      · refine ⟨_, rfl, ⟨?_, hl, hr⟩, rfl⟩
        simp only [flat, List.length_append, List.length_cons]
        push_cast
        omega

theorem tmin_ok {t : Tree K V} (h : Sized t) (ne : t ≠ E) :
    ∃ p t', tmin t = some p ∧ delmin t = some t' ∧ Sized t' ∧ flat t = p :: flat t' := by
  induction t with
  | E => exact absurd rfl ne
  | T k v c l r ihl ihr =>
    cases l with
    | E => exact ⟨(k, v), r, rfl, rfl, h.2.2, rfl⟩
    | T lk lv lc ll lr =>
      obtain ⟨p, t', h1, h2, h3, h4⟩ := ihl h.2.1 (by simp)
      obtain ⟨t'', h5, h6, h7⟩ := T'_ok k v h3 h.2.2
      refine ⟨p, t'', h1, ?_, h6, ?_⟩
      · rw [delmin, h2]
        · exact h5
        · simp
      · rw [h7, flat, h4]; rfl

theorem delete'_ok {l r : Tree K V} (hl : Sized l) (hr : Sized r) :
    ∃ t, delete' l r = some t ∧ Sized t ∧ flat t = flat l ++ flat r := by
  cases l with
  | E => exact ⟨r, rfl, hr, rfl⟩
  | T lk lv lc ll lr =>
    cases r with
    | E => exact ⟨_, rfl, hl, by simp [flat]⟩
    | T rk rv rc rl rr =>
      obtain ⟨p, t', h1, h2, h3, h4⟩ := tmin_ok hr (by simp)
      obtain ⟨t, h5, h6, h7⟩ := T'_ok p.1 p.2 hl h3
      refine ⟨t, ?_, h6, by rw [h7, h4]⟩
      simp only [delete', h1, h2]
      exact h5

section
variable {cmp : K → K → Ordering} (h : Lawful cmp)
include h

theorem insert_ok (x : K) (v : V) (t : Tree K V) (hs : Sized t) (ho : Sorted cmp (flat t)) :
    ∃ t', insert cmp x v t = some t' ∧ Sized t' ∧ flat t' = lins cmp x v (flat t) := by
  induction t with
  | E => exact ⟨_, rfl, by simp [Sized, flat], rfl⟩
  | T k w c l r ihl ihr =>
    obtain ⟨o1, o2, o3, o4, _⟩ := sorted_mid.mp ho
    unfold insert
    cases e : cmp k x with
    | gt =>
      obtain ⟨l', h1, h2, h3⟩ := ihl hs.2.1 o1
      obtain ⟨t', h4, h5, h6⟩ := T'_ok k w h2 hs.2.2
      refine ⟨t', by simp only [h1]; exact h4, h5, ?_⟩
      rw [h6, h3, flat, lins_lt h ((h.gt_iff _ _).1 e)]
    | lt =>
      obtain ⟨r', h1, h2, h3⟩ := ihr hs.2.2 o2
      obtain ⟨t', h4, h5, h6⟩ := T'_ok k w hs.2.1 h2
      refine ⟨t', by simp only [h1]; exact h4, h5, ?_⟩
      rw [h6, h3, flat, lins_gt h ((h.gt_iff _ _).2 e) o3]
    | eq =>
      refine ⟨_, rfl, hs, ?_⟩
      rw [flat, flat, lins_eq h (h.eq_symm e) o3]

theorem find_ok (x : K) (t : Tree K V) (ho : Sorted cmp (flat t)) : find cmp x t = (lfind cmp x (flat t)).map Prod.snd := by
  induction t with
  | E => rfl
  | T k w c l r ihl ihr =>
    obtain ⟨o1, o2, o3, o4, _⟩ := sorted_mid.mp ho
    unfold find
    rw [flat]
    cases e : cmp x k with
    | gt => rw [lfind_gt h e o3]; exact ihr o2
    | lt => rw [lfind_lt h e]; exact ihl o1
    | eq => rw [lfind_eq h e o3]; rfl

theorem remove_ok (x : K) (t : Tree K V) (hs : Sized t) (ho : Sorted cmp (flat t)) :
    (lfind cmp x (flat t) = none ∧ remove cmp x t = .notFound) ∨
    ∃ p t', lfind cmp x (flat t) = some p ∧ remove cmp x t = .ok t' p.2 ∧ Sized t' ∧ flat t' = lrem cmp x (flat t) := by
  induction t with
  | E => exact .inl ⟨rfl, rfl⟩
  | T k w c l r ihl ihr =>
    obtain ⟨o1, o2, o3, o4, _⟩ := sorted_mid.mp ho
    unfold remove
    rw [flat]
    cases e : cmp k x with
    | gt =>
      have e' := (h.gt_iff _ _).1 e
      rw [lfind_lt h e', lrem_lt h e']
      rcases ihl hs.2.1 o1 with ⟨h1, h2⟩ | ⟨p, t', h1, h2, h3, h4⟩
      · exact .inl ⟨h1, by simp only [h2, rebuild]⟩
      · obtain ⟨t'', h5, h6, h7⟩ := T'_ok k w h3 hs.2.2
        exact .inr ⟨p, t'', h1, by simp only [h2, rebuild, h5], h6, by rw [h7, h4]⟩
    | lt =>
      have e' := (h.gt_iff _ _).2 e
      rw [lfind_gt h e' o3, lrem_gt h e' o3]
      rcases ihr hs.2.2 o2 with ⟨h1, h2⟩ | ⟨p, t', h1, h2, h3, h4⟩
      · exact .inl ⟨h1, by simp only [h2, rebuild]⟩
      · obtain ⟨t'', h5, h6, h7⟩ := T'_ok k w hs.2.1 h3
        exact .inr ⟨p, t'', h1, by simp only [h2, rebuild, h5], h6, by rw [h7, h4]⟩
    | eq =>
      have e' := h.eq_symm e
      rw [lfind_eq h e' o3, lrem_eq h e' o3]
      obtain ⟨t', h1, h2, h3⟩ := delete'_ok hs.2.1 hs.2.2
      exact .inr ⟨_, t', rfl, by simp only [h1], h2, h3⟩

end

theorem d2l_eq (t : Tree K V) : ∀ res, d2l t res = flat t ++ res := by
  induction t with
  | E => intro res; rfl
  | T k v c l r ihl ihr => intro res; simp [d2l, flat, ihl, ihr]

theorem listItems_eq (t : Tree K V) : listItems t = flat t := by simp [listItems, d2l_eq]

/-- the operations that make a new map -/
inductive Op (K V : Type) where
  | insert (k : K) (v : V)
  | remove (k : K)

/-- a program: `none` if Match was raised; NotFound leaves the map as it was -/
def run (cmp : K → K → Ordering) : List (Op K V) → Option (Tree K V)
  | [] => some empty
  | .insert k v :: ops => do let t ← run cmp ops; insert cmp k v t
  | .remove k :: ops => do
    let t ← run cmp ops
    match remove cmp k t with
    | .ok t' _ => some t'
    | .notFound => some t
    | .matchFail => none

/-- the same on finite maps (the last operation comes first in the list) -/
def spec (cmp : K → K → Ordering) : List (Op K V) → FMap K V
  | [] => FMap.empty
  | .insert k v :: ops => FMap.insert cmp (spec cmp ops) k v
  | .remove k :: ops => FMap.remove cmp (spec cmp ops) k

theorem run_ok {cmp : K → K → Ordering} (h : Lawful cmp) (ops : List (Op K V)) :
    ∃ t, run cmp ops = some t ∧ Sized t ∧ Lists cmp (flat t) (spec cmp ops) := by
  induction ops with
  | nil => exact ⟨E, rfl, trivial, Lists.empty⟩
  | cons op ops ih =>
    obtain ⟨t, h1, h2, h3⟩ := ih
    cases op with
    | insert k v =>
      obtain ⟨t', h4, h5, h6⟩ := insert_ok h k v t h2 h3.1
      exact ⟨t', by simp only [run, h1]; exact h4, h5, by rw [h6]; exact h3.insert h k v⟩
    | remove k =>
      rcases remove_ok h k t h2 h3.1 with ⟨h4, h5⟩ | ⟨p, t', h4, h5, h6, h7⟩
      · refine ⟨t, by simp [run, h1, h5], h2, ?_⟩
        have e : spec cmp (.remove k :: ops) = spec cmp ops := by
          funext y
          simp only [spec, FMap.remove]
          split
          · rename_i e
            cases e' : spec cmp ops y with
            | none => rfl
            | some p =>
              have := (h3.2 y p).1 e'
              rw [(lfind_some h h3.1).2 ⟨this.1, h.eq_trans this.2 (h.eq_symm e)⟩] at h4
              cases h4
          · rfl
        rw [e]; exact h3
      · exact ⟨t', by simp [run, h1, h5], h6, by rw [h7]; exact h3.remove h k⟩

/-- C38: after any sequence of insertions and removals, in which Match is never raised, the map behaves as the finite map: `find` and
`peek`; `listItems` (sorted, exactly the items); `numItems`; and the result of a further insertion or removal. -/
theorem C38_binarymap {cmp : K → K → Ordering} (h : Lawful cmp) (ops : List (Op K V)) :
    ∃ t, run cmp ops = some t ∧
      (∀ x, find cmp x t = (spec cmp ops).value x) ∧
      Lists cmp (listItems t) (spec cmp ops) ∧
      treeSize t = (listItems t).length ∧
      (∀ x, (spec cmp ops x = none ∧ remove cmp x t = .notFound) ∨ ∃ t' v, (spec cmp ops).value x = some v ∧ remove cmp x t = .ok t' v) := by
  obtain ⟨t, h1, h2, h3⟩ := run_ok h ops
  refine ⟨t, h1, ?_, ?_, ?_, ?_⟩
  · intro x
    rw [find_ok h x t h3.1, Lists.find h h3]; rfl
  · rw [listItems_eq]; exact h3
  · rw [listItems_eq]; exact size_eq h2
  · intro x
    rcases remove_ok h x t h2 h3.1 with ⟨h4, h5⟩ | ⟨p, t', h4, h5, -, -⟩
    · exact .inl ⟨by rw [← Lists.find h h3]; exact h4, h5⟩
    · refine .inr ⟨t', p.2, ?_, h5⟩
      rw [FMap.value, ← Lists.find h h3, h4]; rfl

/-- C38: the traversals go through the items in (reverse) order. -/
theorem C38_traversals {S : Type} (t : Tree K V) (s : S) (f : K × V → S → S) (g : K × V × S → S) :
    app f t s = (listItems t).foldl (fun s p => f p s) s ∧
    revapp f t s = (listItems t).reverse.foldl (fun s p => f p s) s ∧
    foldl g t s = (listItems t).foldl (fun s p => g (p.1, p.2, s)) s ∧
    foldr g t s = (listItems t).foldr (fun p s => g (p.1, p.2, s)) s := by
  rw [listItems_eq]
  refine ⟨?_, ?_, ?_, ?_⟩
  · induction t generalizing s with
    | E => rfl
    | T k v c l r ihl ihr => simp [app, flat, ihl, ihr]
  · induction t generalizing s with
    | E => rfl
    | T k v c l r ihl ihr =>
      simp only [revapp, flat, ihl, ihr, List.reverse_append, List.reverse_cons, List.foldl_append, List.foldl_cons, List.foldl_nil]
  · induction t generalizing s with
    | E => rfl
    | T k v c l r ihl ihr => simp [foldl, flat, ihl, ihr]
  · induction t generalizing s with
    | E => rfl
    | T k v c l r ihl ihr => simp [foldr, flat, ihl, ihr]

/-- the effect of applying a function with state to the items of a list in turn -/
def mapList {S W : Type} (f : K × V → S → W × S) : List (K × V) → S → List (K × W) × S
  | [], s => ([], s)
  | p :: l, s => let r := f p s; let q := mapList f l r.2; ((p.1, r.1) :: q.1, q.2)

theorem mapList_append {S W : Type} (f : K × V → S → W × S) (l r : List (K × V)) (s : S) :
    mapList f (l ++ r) s = ((mapList f l s).1 ++ (mapList f r (mapList f l s).2).1, (mapList f r (mapList f l s).2).2) := by
  induction l generalizing s with
  | nil => rfl
  | cons p l ih => simp [mapList, ih]

/-- C38: `map` and `transform` keep the keys and call the function on the items in order. -/
theorem C38_map {S W : Type} (t : Tree K V) (s : S) (f : K × V → S → W × S) (g : V → S → W × S) :
    (listItems (map f t s).1, (map f t s).2) = mapList f (listItems t) s ∧
    (listItems (transform g t s).1, (transform g t s).2) = mapList (fun p => g p.2) (listItems t) s ∧
    treeSize (map f t s).1 = treeSize t ∧ treeSize (transform g t s).1 = treeSize t := by
  simp only [listItems_eq]
  refine ⟨?_, ?_, ?_, ?_⟩
  · induction t generalizing s with
    | E => rfl
    | T k v c l r ihl ihr =>
      have e1 := ihl s
      have e2 := ihr (f (k, v) (map f l s).2).2
      simp only [map, flat, mapList_append, mapList]
      rw [← e1, ← e2]
  · induction t generalizing s with
    | E => rfl
    | T k v c l r ihl ihr =>
      have e1 := ihl s
      have e2 := ihr (g v (transform g l s).2).2
      simp only [transform, flat, mapList_append, mapList]
      rw [← e1, ← e2]
  · cases t <;> rfl
  · cases t <;> rfl

theorem cmp_gt (a b : Int) : compare a b = .gt ↔ a > b := by
  have := int_ne_gt a b
  constructor
  · intro h; by_contra h'; exact absurd h (this.2 (by omega))
  · intro h; by_contra h'; have := this.1 h'; omega

theorem cmp_lt (a b : Int) : compare a b = .lt ↔ a < b := by
  rw [← int_lawful.gt_iff b a]; exact cmp_gt b a

/-- C38: Intmap is Binarymap on integers. -/
theorem C38_intmap (x : Int) (v : V) (t : Tree Int V) :
    Intmap.insert x v t = insert (fun a b => compare a b) x v t ∧
    Intmap.retrieve x t = find (fun a b => compare a b) x t ∧
    Intmap.remove x t = remove (fun a b => compare a b) x t := by
  have key : ∀ a b : Int, (a > b ∧ compare a b = .gt) ∨ (¬ a > b ∧ a < b ∧ compare a b = .lt) ∨ (¬ a > b ∧ ¬ a < b ∧ compare a b = .eq) := by
    intro a b
    cases e : compare a b with
    | gt => exact .inl ⟨(cmp_gt a b).1 e, rfl⟩
    | lt => have := (cmp_lt a b).1 e; exact .inr (.inl ⟨by omega, this, rfl⟩)
    | eq =>
      refine .inr (.inr ⟨?_, ?_, rfl⟩)
      · intro h; rw [(cmp_gt a b).2 h] at e; cases e
      · intro h; rw [(cmp_lt a b).2 h] at e; cases e
  refine ⟨?_, ?_, ?_⟩
  · induction t with
    | E => rfl
    | T k w c l r ihl ihr =>
      unfold Intmap.insert insert
      rcases key k x with ⟨h1, h2⟩ | ⟨h1, h3, h2⟩ | ⟨h1, h3, h2⟩
      · rw [if_pos h1, h2, ihl]
      · rw [if_neg h1, if_pos h3, h2, ihr]
      · rw [if_neg h1, if_neg h3, h2]
  · induction t with
    | E => rfl
    | T k w c l r ihl ihr =>
      unfold Intmap.retrieve find
      rcases key x k with ⟨h1, h2⟩ | ⟨h1, h3, h2⟩ | ⟨h1, h3, h2⟩
      · rw [if_pos h1, h2, ihr]
      · rw [if_neg h1, if_pos h3, h2, ihl]
      · rw [if_neg h1, if_neg h3, h2]
  · induction t with
    | E => rfl
    | T k w c l r ihl ihr =>
      unfold Intmap.remove remove
      rcases key k x with ⟨h1, h2⟩ | ⟨h1, h3, h2⟩ | ⟨h1, h3, h2⟩
      · rw [if_pos h1, h2, ihl]
      · rw [if_neg h1, if_pos h3, h2, ihr]
      · rw [if_neg h1, if_neg h3, h2]
        cases delete' l r <;> rfl

/-- the criterion of the comment in Binarymap.sml:35-40: one subtree must not have more than `weight` times as many elements as the
opposite subtree (trees of at most two elements aside, as in `T'`) -/
def Balanced : Tree K V → Bool
  | E => true
  | T _ _ _ l r =>
    (decide (treeSize l + treeSize r ≤ 1) || decide (treeSize l ≤ wt (treeSize r)) && decide (treeSize r ≤ wt (treeSize l))) &&
      Balanced l && Balanced r

/-- insertions alone can break the criterion that "rebalancing is guaranteed to reinstate" -/
theorem C38_balance_violation :
    ∃ ops : List (Op Int Unit), ∃ t, run (fun a b => compare a b) ops = some t ∧ Balanced t = false ∧ ∀ k, .remove k ∉ ops := by
  refine ⟨([4, 2, 9, 0, 10, 15, 16, 17, 1, 13, 6, 7, 12].reverse).map (fun k => .insert k ()), _, rfl, by decide +kernel, by simp⟩

/-- a run with rotations, a replacement and removals, under a comparison for which 1 and 11 are the same key -/
example : (run (fun a b : Int => compare (a % 10) (b % 10)) [.remove 3, .insert 11 'x', .remove 8, .insert 5 'e', .insert 4 'd',
      .insert 3 'c', .insert 2 'b', .insert 1 'a']).map (fun t => (listItems t, treeSize t)) =
    some ([(11, 'x'), (2, 'b'), (4, 'd'), (5, 'e')], 4) := by decide +kernel

example : Lawful (fun a b : Int => compare (a % 10) (b % 10)) := mod_lawful 10

end Mosml.Maps.Binarymap
