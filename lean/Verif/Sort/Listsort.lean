import Verif.Maps.Sorted
import Mathlib.Data.List.Perm.Basic

/-!
C41: src/mosmllib/Listsort.sml.
-/
namespace Mosml.Sort.Listsort
open Mosml.Maps (Lawful)

variable {A : Type}

section model
variable (ordr : A → A → Ordering)

/-- Listsort.sml:21-25 (and 65-69) `take` -/
def take (x1 : A) (xr : List A) : List A → List A
  | [] => x1 :: xr
  | y1 :: yr =>
    match ordr x1 y1 with
    | .lt => x1 :: take y1 yr xr
    | _ => y1 :: take x1 xr yr
termination_by ys => xr.length + ys.length

/-- Listsort.sml:19-26, 63-70 -/
def merge : List A → List A → List A
  | [], ys => ys
  | x1 :: xr, ys => take ordr x1 xr ys

/-- Listsort.sml:27-30 -/
def mergepairs (l1 : List A) : List (List A) → Int → List (List A)
  | [], _ => [l1]
  | l2 :: lr, k => if k.fmod 2 = 1 then l1 :: l2 :: lr else mergepairs (merge ordr l1 l2) lr (k.fdiv 2)

/-- Listsort.sml:31-34; `run` is not empty, its first element is given apart -/
def nextrun (h : A) (run : List A) : List A → (A × List A) × List A
  | [] => ((h, run), [])
  | x :: xr => if ordr x h = .lt then ((h, run), x :: xr) else nextrun x (h :: run) xr

theorem nextrun_length (xs : List A) : ∀ h run, (nextrun ordr h run xs).2.length ≤ xs.length := by
  induction xs with
  | nil => intro h run; simp [nextrun]
  | cons x xr ih =>
    intro h run
    simp only [nextrun]
    split
    · simp
    · have := ih x (h :: run); simp only [List.length_cons]; omega

/-- Listsort.sml:35-38; `none` is the exception Empty of `List.hd` -/
def sorting : List A → List (List A) → Int → Option (List A)
  | [], ls, _ => (mergepairs ordr [] ls 0).head?
  | x :: xs, ls, r =>
    let q := nextrun ordr x [] xs
    sorting q.2 (mergepairs ordr (q.1.1 :: q.1.2).reverse ls (r + 1)) (r + 1)
termination_by xs => xs.length
decreasing_by have := nextrun_length ordr xs x []; simp only [List.length_cons]; omega

/-- Listsort.sml:12-39 -/
def sort : List A → Option (List A)
  | [] => some []
  | [x] => some [x]
  | [x1, x2] => match ordr x1 x2 with
    | .gt => some [x2, x1]
    | _ => some [x1, x2]
  | xs => sorting ordr xs [] 0

/-- Listsort.sml:45-46 -/
def sortedH (x0 : A) : List A → Bool
  | [] => true
  | x1 :: xr => (ordr x0 x1 != .gt) && sortedH x1 xr

/-- Listsort.sml:43-47 -/
def sorted : List A → Bool
  | [] => true
  | y1 :: yr => sortedH ordr y1 yr

/-- Listsort.sml:53-58 -/
def takeUniq (x1 : A) (xr : List A) : List A → List A
  | [] => x1 :: xr
  | y1 :: yr =>
    match ordr x1 y1 with
    | .lt => x1 :: takeUniq y1 yr xr
    | .gt => y1 :: takeUniq x1 xr yr
    | .eq => takeUniq x1 xr yr
termination_by ys => xr.length + ys.length

/-- Listsort.sml:51-59 -/
def mergeUniq : List A → List A → List A
  | [], ys => ys
  | x1 :: xr, ys => takeUniq ordr x1 xr ys

/-- Listsort.sml:76-83 -/
def group (last : A) : List A → List A → List (List A) → List (List A)
  | [], cs1, css => cs1 :: css
  | r1 :: rr, cs1, css => if ordr r1 last = .eq then group r1 rr (r1 :: cs1) css else group r1 rr [r1] (cs1 :: css)

/-- Listsort.sml:74-88 -/
def eqclasses (xs : List A) : Option (List (List A)) := do
  let xs ← sort ordr xs
  match xs.reverse with
  | [] => some []
  | x1 :: xr => some (group ordr x1 xr [x1] [])

end model

/-- nondecreasing order: no element is greater than a later one -/
def Ordered (ordr : A → A → Ordering) (l : List A) : Prop := l.Pairwise (fun a b => ordr a b ≠ .gt)

variable {ordr : A → A → Ordering} (h : Lawful ordr)

theorem take_perm (x1 : A) (xr ys : List A) : (take ordr x1 xr ys).Perm (x1 :: xr ++ ys) := by
  fun_induction take ordr x1 xr ys with
  | case1 x1 xr => simp
  | case2 x1 xr y1 yr e ih =>
    refine (List.Perm.cons x1 ih).trans ?_
    simp only [List.cons_append]
    refine List.Perm.cons x1 ?_
    exact (List.perm_append_comm (l₁ := y1 :: yr) (l₂ := xr))
  | case3 x1 xr y1 yr e ih =>
    refine (List.Perm.cons y1 ih).trans ?_
    simp only [List.cons_append]
    refine (List.Perm.swap x1 y1 _).trans (List.Perm.cons x1 ?_)
    exact (List.perm_middle).symm

theorem merge_perm (xs ys : List A) : (merge ordr xs ys).Perm (xs ++ ys) := by
  cases xs with
  | nil => simp [merge]
  | cons x xr => exact take_perm x xr ys

include h in
theorem take_ordered (x1 : A) (xr ys : List A) (hx : Ordered ordr (x1 :: xr)) (hy : Ordered ordr ys) : Ordered ordr (take ordr x1 xr ys) := by
  fun_induction take ordr x1 xr ys with
  | case1 x1 xr => exact hx
  | case2 x1 xr y1 yr e ih =>
    obtain ⟨hx1, hx2⟩ := List.pairwise_cons.mp hx
    obtain ⟨hy1, hy2⟩ := List.pairwise_cons.mp hy
    refine List.pairwise_cons.mpr ⟨?_, ih hy hx2⟩
    intro b hb
    have := (take_perm y1 yr xr).mem_iff.mp hb
    simp only [List.cons_append, List.mem_cons, List.mem_append] at this
    rcases this with rfl | hb | hb
    · simp [e]
    · exact h.trans _ y1 _ (by simp [e]) (hy1 b hb)
    · exact hx1 b hb
  | case3 x1 xr y1 yr e ih =>
    obtain ⟨hx1, hx2⟩ := List.pairwise_cons.mp hx
    obtain ⟨hy1, hy2⟩ := List.pairwise_cons.mp hy
    have e' : ordr y1 x1 ≠ .gt := fun h' => e ((h.gt_iff _ _).1 h')
    refine List.pairwise_cons.mpr ⟨?_, ih hx hy2⟩
    intro b hb
    have := (take_perm x1 xr yr).mem_iff.mp hb
    simp only [List.cons_append, List.mem_cons, List.mem_append] at this
    rcases this with rfl | hb | hb
    · exact e'
    · exact h.trans _ x1 _ e' (hx1 b hb)
    · exact hy1 b hb

include h in
theorem merge_ordered (xs ys : List A) (hx : Ordered ordr xs) (hy : Ordered ordr ys) : Ordered ordr (merge ordr xs ys) := by
  cases xs with
  | nil => exact hy
  | cons x xr => exact take_ordered h x xr ys hx hy

theorem mergepairs_perm (ls : List (List A)) : ∀ l1 k, (mergepairs ordr l1 ls k).flatten.Perm (l1 ++ ls.flatten) := by
  induction ls with
  | nil => intro l1 k; simp [mergepairs]
  | cons l2 lr ih =>
    intro l1 k
    simp only [mergepairs]
    split
    · simp
    · refine (ih _ _).trans ?_
      rw [List.flatten_cons, ← List.append_assoc]
      exact (merge_perm l1 l2).append_right _

include h in
theorem mergepairs_ordered (ls : List (List A)) : ∀ l1 k, Ordered ordr l1 → (∀ l ∈ ls, Ordered ordr l) → ∀ l ∈ mergepairs ordr l1 ls k, Ordered ordr l := by
  induction ls with
  | nil => intro l1 k h1 _ l hl; simp [mergepairs] at hl; rw [hl]; exact h1
  | cons l2 lr ih =>
    intro l1 k h1 h2 l hl
    simp only [mergepairs] at hl
    split at hl
    · rcases List.mem_cons.mp hl with rfl | hl
      · exact h1
      · exact h2 l hl
    · exact ih _ _ (merge_ordered h l1 l2 h1 (h2 l2 (by simp))) (fun l hl => h2 l (by simp [hl])) l hl

theorem mergepairs_zero (ls : List (List A)) : ∀ l1, ∃ l, mergepairs ordr l1 ls 0 = [l] := by
  induction ls with
  | nil => intro l1; exact ⟨l1, rfl⟩
  | cons l2 lr ih =>
    intro l1
    have : mergepairs ordr l1 (l2 :: lr) 0 = mergepairs ordr (merge ordr l1 l2) lr 0 := rfl
    rw [this]; exact ih _

include h in
theorem nextrun_ok (xs : List A) : ∀ x run, Ordered ordr (x :: run).reverse →
    Ordered ordr ((nextrun ordr x run xs).1.1 :: (nextrun ordr x run xs).1.2).reverse ∧
    ((nextrun ordr x run xs).1.1 :: (nextrun ordr x run xs).1.2).reverse ++ (nextrun ordr x run xs).2 = (x :: run).reverse ++ xs := by
  induction xs with
  | nil => intro x run ho; exact ⟨ho, rfl⟩
  | cons y ys ih =>
    intro x run ho
    simp only [nextrun]
    split
    · exact ⟨ho, rfl⟩
    · rename_i e
      have e' : ordr x y ≠ .gt := fun h' => e ((h.gt_iff _ _).1 h')
      obtain ⟨i1, i2⟩ := ih y (x :: run) (by
        rw [List.reverse_cons]
        refine List.pairwise_append.mpr ⟨ho, List.pairwise_singleton _ _, ?_⟩
        intro a ha b hb
        rw [List.mem_singleton.mp hb]
        rw [List.mem_reverse, List.mem_cons] at ha
        rcases ha with rfl | ha
        · exact e'
        · rw [List.reverse_cons] at ho
          have := (List.pairwise_append.mp ho).2.2 a (by simpa using ha) x (by simp)
          exact h.trans _ x _ this e')
      exact ⟨i1, by rw [i2]; simp⟩

include h in
theorem sorting_ok (xs : List A) (ls : List (List A)) (r : Int) (hl : ∀ l ∈ ls, Ordered ordr l) :
    ∃ zs, sorting ordr xs ls r = some zs ∧ zs.Perm (xs ++ ls.flatten) ∧ Ordered ordr zs := by
  fun_induction sorting ordr xs ls r with
  | case1 ls r =>
    obtain ⟨l, hl'⟩ := mergepairs_zero (ordr := ordr) ls []
    refine ⟨l, by rw [hl']; rfl, ?_, ?_⟩
    · have := mergepairs_perm (ordr := ordr) ls [] 0
      rw [hl'] at this; simpa using this
    · exact mergepairs_ordered h ls [] 0 List.Pairwise.nil hl l (by rw [hl']; simp)
  | case2 x xs ls r q ih =>
    obtain ⟨n1, n2⟩ := nextrun_ok h xs x [] (by simp [Ordered])
    obtain ⟨zs, z1, z2, z3⟩ := ih (mergepairs_ordered h ls _ _ n1 hl)
    refine ⟨zs, z1, z2.trans ?_, z3⟩
    refine (List.Perm.append_left _ (mergepairs_perm ls _ _)).trans ?_
    have e : x :: xs = (q.1.1 :: q.1.2).reverse ++ q.2 := by rw [n2]; rfl
    rw [e]
    generalize (q.1.1 :: q.1.2).reverse = a
    generalize q.2 = b
    rw [← List.append_assoc]
    exact List.perm_append_comm.append_right _

include h in
/-- C41: `sort` never fails (in particular `List.hd` does not raise Empty), and its result is the list in nondecreasing order. -/
theorem C41_sort (xs : List A) : ∃ zs, sort ordr xs = some zs ∧ zs.Perm xs ∧ Ordered ordr zs := by
  unfold sort
  split
  · exact ⟨[], rfl, List.Perm.refl _, List.Pairwise.nil⟩
  · rename_i x
    exact ⟨[x], rfl, List.Perm.refl _, List.pairwise_singleton _ _⟩
  · rename_i x1 x2
    cases e : ordr x1 x2 with
    | gt =>
      refine ⟨_, rfl, List.Perm.swap _ _ _, ?_⟩
      have := (h.gt_iff _ _).1 e
      simp [Ordered, this]
    | lt | eq =>
      refine ⟨_, rfl, List.Perm.refl _, ?_⟩
      simp [Ordered, e]
  · obtain ⟨zs, h1, h2, h3⟩ := sorting_ok h xs [] 0 (by simp)
    exact ⟨zs, h1, by simpa using h2, h3⟩

include h in
/-- C41: `sorted` decides whether a list is in nondecreasing order. -/
theorem C41_sorted (xs : List A) : sorted ordr xs = true ↔ Ordered ordr xs := by
  cases xs with
  | nil => simp [sorted, Ordered]
  | cons x xs =>
    simp only [sorted]
    induction xs generalizing x with
    | nil => simp [sortedH, Ordered]
    | cons y ys ih =>
      simp only [sortedH, Bool.and_eq_true, bne_iff_ne, ih]
      constructor
      · rintro ⟨h1, h2⟩
        refine List.pairwise_cons.mpr ⟨?_, h2⟩
        intro b hb
        rcases List.mem_cons.mp hb with rfl | hb
        · exact h1
        · exact h.trans _ y _ h1 ((List.pairwise_cons.mp h2).1 b hb)
      · intro h1
        obtain ⟨h2, h3⟩ := List.pairwise_cons.mp h1
        exact ⟨h2 y (by simp), h3⟩

include h in
/-- C41: merging ordered lists gives the ordered list of their elements, with duplicates. -/
theorem C41_merge (xs ys : List A) (hx : Ordered ordr xs) (hy : Ordered ordr ys) :
    Ordered ordr (merge ordr xs ys) ∧ (merge ordr xs ys).Perm (xs ++ ys) :=
  ⟨merge_ordered h xs ys hx hy, merge_perm xs ys⟩

/-- increasing, without EQUAL elements -/
def Strict (ordr : A → A → Ordering) (l : List A) : Prop := l.Pairwise (fun a b => ordr a b = .lt)

include h in
theorem takeUniq_ok (x1 : A) (xr ys : List A) (hx : Strict ordr (x1 :: xr)) (hy : Strict ordr ys) :
    Strict ordr (takeUniq ordr x1 xr ys) ∧ (∀ z, z ∈ takeUniq ordr x1 xr ys → z ∈ x1 :: xr ∨ z ∈ ys) ∧
      (∀ z, z ∈ x1 :: xr ∨ z ∈ ys → ∃ z' ∈ takeUniq ordr x1 xr ys, ordr z' z = .eq) := by
  fun_induction takeUniq ordr x1 xr ys with
  | case1 x1 xr => exact ⟨hx, fun z hz => .inl hz, fun z hz => ⟨z, by simpa using hz, h.refl z⟩⟩
  | case2 x1 xr y1 yr e ih =>
    obtain ⟨hx1, hx2⟩ := List.pairwise_cons.mp hx
    obtain ⟨hy1, hy2⟩ := List.pairwise_cons.mp hy
    obtain ⟨i1, i2, i3⟩ := ih hy hx2
    refine ⟨List.pairwise_cons.mpr ⟨?_, i1⟩, ?_, ?_⟩
    · intro b hb
      rcases i2 b hb with hb | hb
      · rcases List.mem_cons.mp hb with rfl | hb
        · exact e
        · exact h.lt_trans e (hy1 b hb)
      · exact hx1 b hb
    · intro z hz
      rcases List.mem_cons.mp hz with rfl | hz
      · simp
      · rcases i2 z hz with hz | hz
        · exact .inr hz
        · exact .inl (by simp [hz])
    · intro z hz
      rcases hz with hz | hz
      · rcases List.mem_cons.mp hz with rfl | hz
        · exact ⟨z, by simp, h.refl z⟩
        · obtain ⟨z', h1, h2⟩ := i3 z (.inr hz)
          exact ⟨z', by simp [h1], h2⟩
      · obtain ⟨z', h1, h2⟩ := i3 z (.inl hz)
        exact ⟨z', by simp [h1], h2⟩
  | case3 x1 xr y1 yr e ih =>
    obtain ⟨hx1, hx2⟩ := List.pairwise_cons.mp hx
    obtain ⟨hy1, hy2⟩ := List.pairwise_cons.mp hy
    obtain ⟨i1, i2, i3⟩ := ih hx hy2
    have e' := (h.gt_iff _ _).1 e
    refine ⟨List.pairwise_cons.mpr ⟨?_, i1⟩, ?_, ?_⟩
    · intro b hb
      rcases i2 b hb with hb | hb
      · rcases List.mem_cons.mp hb with rfl | hb
        · exact e'
        · exact h.lt_trans e' (hx1 b hb)
      · exact hy1 b hb
    · intro z hz
      rcases List.mem_cons.mp hz with rfl | hz
      · simp
      · rcases i2 z hz with hz | hz
        · exact .inl hz
        · exact .inr (by simp [hz])
    · intro z hz
      rcases hz with hz | hz
      · obtain ⟨z', h1, h2⟩ := i3 z (.inl hz)
        exact ⟨z', by simp [h1], h2⟩
      · rcases List.mem_cons.mp hz with rfl | hz
        · exact ⟨z, by simp, h.refl z⟩
        · obtain ⟨z', h1, h2⟩ := i3 z (.inr hz)
          exact ⟨z', by simp [h1], h2⟩
  | case4 x1 xr y1 yr e ih =>
    obtain ⟨hy1, hy2⟩ := List.pairwise_cons.mp hy
    obtain ⟨i1, i2, i3⟩ := ih hx hy2
    refine ⟨i1, ?_, ?_⟩
    · intro z hz
      rcases i2 z hz with hz | hz
      · exact .inl hz
      · exact .inr (by simp [hz])
    · intro z hz
      rcases hz with hz | hz
      · exact i3 z (.inl hz)
      · rcases List.mem_cons.mp hz with rfl | hz
        · obtain ⟨z', h1, h2⟩ := i3 x1 (.inl (by simp))
          exact ⟨z', h1, h.eq_trans h2 e⟩
        · exact i3 z (.inr hz)

include h in
/-- C41: `mergeUniq` of lists that are increasing and have no duplicates themselves: no duplicates, every element is from one of the
lists, and every element is represented. -/
theorem C41_mergeUniq_partial (xs ys : List A) (hx : Strict ordr xs) (hy : Strict ordr ys) :
    Strict ordr (mergeUniq ordr xs ys) ∧ (∀ z, z ∈ mergeUniq ordr xs ys → z ∈ xs ∨ z ∈ ys) ∧
      (∀ z, z ∈ xs ∨ z ∈ ys → ∃ z' ∈ mergeUniq ordr xs ys, ordr z' z = .eq) := by
  cases xs with
  | nil => exact ⟨hy, fun z hz => .inr hz, fun z hz => ⟨z, by simpa [mergeUniq] using hz, h.refl z⟩⟩
  | cons x xr => exact takeUniq_ok h x xr ys hx hy

/-- the documentation asks only that the lists be sorted; duplicates within one list stay -/
theorem C41_mergeUniq_violation : ∃ xs ys : List Int, Ordered (fun a b => compare a b) xs ∧ Ordered (fun a b => compare a b) ys ∧
    ¬ Strict (fun a b => compare a b) (mergeUniq (fun a b => compare a b) xs ys) := by
  refine ⟨[1, 1], [], by simp [Ordered], List.Pairwise.nil, ?_⟩
  have : mergeUniq (fun a b : Int => compare a b) [1, 1] [] = [1, 1] := by simp [mergeUniq, takeUniq]
  rw [this]
  simp [Strict]

/-- classes in increasing order: within a class all elements are EQUAL, elements of different classes are in the order of the classes -/
def Classes (ordr : A → A → Ordering) (css : List (List A)) : Prop :=
  (∀ cs ∈ css, cs ≠ [] ∧ ∀ a ∈ cs, ∀ b ∈ cs, ordr a b = .eq) ∧ css.Pairwise (fun cs ds => ∀ a ∈ cs, ∀ b ∈ ds, ordr a b = .lt)

include h in
theorem group_ok (rest : List A) : ∀ (last : A) (cs : List A) (css : List (List A)),
    Ordered ordr (rest.reverse ++ (last :: cs) ++ css.flatten) → Classes ordr ((last :: cs) :: css) →
    Classes ordr (group ordr last rest (last :: cs) css) ∧
      (group ordr last rest (last :: cs) css).flatten = rest.reverse ++ (last :: cs) ++ css.flatten := by
  induction rest with
  | nil => intro last cs css _ hc; exact ⟨hc, by simp [group]⟩
  | cons r rr ih =>
    intro last cs css ho hc
    obtain ⟨c1, c2⟩ := hc
    obtain ⟨c3, c4⟩ := List.pairwise_cons.mp c2
    have hle : ∀ b, b ∈ last :: cs ∨ b ∈ css.flatten → ordr r b ≠ .gt := by
      intro b hb
      have ho' := ho
      simp only [List.reverse_cons, List.append_assoc, List.cons_append, List.nil_append] at ho'
      exact (List.pairwise_cons.mp (List.pairwise_append.mp ho').2.1).1 b (by simpa [or_assoc] using hb)
    simp only [group]
    split
    · rename_i e
      have := ih r (last :: cs) css (by simpa using ho) ⟨?_, ?_⟩
      · exact ⟨this.1, by rw [this.2]; simp⟩
      · intro ds hds
        rcases List.mem_cons.mp hds with rfl | hds
        · refine ⟨by simp, ?_⟩
          have k : ∀ a ∈ r :: last :: cs, ordr a last = .eq := by
            intro a ha
            rcases List.mem_cons.mp ha with rfl | ha
            · exact e
            · exact (c1 _ (by simp)).2 a ha last (by simp)
          intro a ha b hb
          exact h.eq_trans (k a ha) (h.eq_symm (k b hb))
        · exact c1 ds (by simp [hds])
      · refine List.pairwise_cons.mpr ⟨?_, c4⟩
        intro ds hds a ha b hb
        rcases List.mem_cons.mp ha with rfl | ha
        · exact h.lt_of_eq_of_lt e (c3 ds hds last (by simp) b hb)
        · exact c3 ds hds a ha b hb
    · rename_i e
      have lt : ordr r last = .lt := by
        have := hle last (by simp)
        cases e' : ordr r last <;> simp_all
      have := ih r [] ((last :: cs) :: css) (by simpa using ho) ⟨?_, ?_⟩
      · exact ⟨this.1, by rw [this.2]; simp⟩
      · intro ds hds
        rcases List.mem_cons.mp hds with rfl | hds
        · exact ⟨by simp, by simp [h.refl]⟩
        · exact c1 ds hds
      · refine List.pairwise_cons.mpr ⟨?_, c2⟩
        intro ds hds a ha b hb
        rw [List.mem_singleton.mp ha]
        rcases List.mem_cons.mp hds with rfl | hds
        · exact h.lt_of_lt_of_eq lt ((c1 _ (by simp)).2 last (by simp) b hb)
        · exact h.lt_trans lt (c3 ds hds last (by simp) b hb)

include h in
/-- C41: `eqclasses` gives the non-empty classes of EQUAL elements, in increasing order, with all the elements of the list. -/
theorem C41_eqclasses (xs : List A) : ∃ css, eqclasses ordr xs = some css ∧ Classes ordr css ∧ css.flatten.Perm xs := by
  obtain ⟨zs, h1, h2, h3⟩ := C41_sort h xs
  unfold eqclasses
  rw [h1]
  show ∃ css, (match zs.reverse with | [] => some [] | x1 :: xr => some (group ordr x1 xr [x1] [])) = some css ∧ _
  cases e : zs.reverse with
  | nil =>
    refine ⟨[], rfl, ⟨by simp, List.Pairwise.nil⟩, ?_⟩
    rw [List.reverse_eq_nil_iff] at e
    subst e; simpa using h2
  | cons x xr =>
    have ez : zs = xr.reverse ++ [x] := by rw [← List.reverse_reverse zs, e]; simp
    obtain ⟨g1, g2⟩ := group_ok h xr x [] [] (by simpa [← ez] using h3) ⟨by simp [h.refl], by simp⟩
    exact ⟨_, rfl, g1, by rw [g2]; simpa [← ez] using h2⟩

/-- a list with runs of several lengths, under a comparison for which different elements are EQUAL -/
example : sort (fun a b : Int => compare (a % 10) (b % 10)) [5, 7, 3, 13, 1, 2, 9, 8, 4] = some [1, 2, 3, 13, 4, 5, 7, 8, 9] := by decide +kernel

example : eqclasses (fun a b : Int => compare (a % 10) (b % 10)) [5, 7, 3, 13, 1, 15] = some [[1], [3, 13], [5, 15], [7]] := by decide +kernel

end Mosml.Sort.Listsort
