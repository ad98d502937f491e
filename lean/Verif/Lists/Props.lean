import Verif.Lists.Spec

/-!
# C80: functions on lists make the documented calls and give the documented results
-/

namespace Mosml.Lists

variable {W α β γ : Type}

theorem pure_apply (a : α) (w : W) : (pure a : Prog W α) w = .ok a w := rfl

theorem bind_ok {p : Prog W α} {k : α → Prog W β} {w w' : W} {a : α} (h : p w = .ok a w') :
    (p >>= k) w = k a w' := by
  show Prog.andThen p k w = _
  simp only [Prog.andThen, h]

theorem bind_abort {p : Prog W α} {k : α → Prog W β} {w : W} {o : Out W β}
    (h : abort (p w) = some o) : (p >>= k) w = o := by
  show Prog.andThen p k w = _
  simp only [Prog.andThen]
  cases hp : p w with
  | ok a w' => rw [hp] at h; simp [abort] at h
  | raise e w' => rw [hp] at h; simpa [abort] using h
  | hang => rw [hp] at h; simpa [abort] using h

theorem bind_assoc (p : Prog W α) (k : α → Prog W β) (l : β → Prog W γ) :
    ((p >>= k) >>= l) = (p >>= fun a => k a >>= l) := by
  funext w
  show Prog.andThen (Prog.andThen p k) l w = Prog.andThen p (fun a => Prog.andThen (k a) l) w
  simp only [Prog.andThen]
  cases p w <;> rfl

theorem pure_bind (a : α) (k : α → Prog W β) : ((pure a : Prog W α) >>= k) = k a := rfl

theorem bind_pure (p : Prog W α) : (p >>= fun a => (pure a : Prog W α)) = p := by
  funext w
  show Prog.andThen p _ w = _
  simp only [Prog.andThen]
  cases p w <;> rfl

theorem throw_bind (e : Exn) (k : α → Prog W β) :
    ((Prog.throw e : Prog W α) >>= k) = Prog.throw e := rfl

theorem bind_congr {p : Prog W α} {k l : α → Prog W β} (h : ∀ a, k a = l a) :
    (p >>= k) = (p >>= l) := by
  have : k = l := funext h
  rw [this]

theorem abort_abort {o : Out W α} {o' : Out W β} (h : abort o = some o') :
    abort o' = some (match o' with
      | .ok _ _ => (.hang : Out W γ) | .raise e w => .raise e w | .hang => .hang) := by
  cases o with
  | ok => simp [abort] at h
  | raise e w => simp only [abort, Option.some.injEq] at h; subst h; rfl
  | hang => simp only [abort, Option.some.injEq] at h; subst h; rfl

/-- A call whose outcome is not a result ends the continuation as well. -/
theorem bind_of_abort {p : Prog W α} {k : α → Prog W β} {o' : Out W γ} {w : W} {o : Out W β}
    (hp : ∃ q : Out W α, abort o' = some q ∧ p w = q) (ho : abort o' = some o) :
    (p >>= k) w = o := by
  obtain ⟨q, hq, hpw⟩ := hp
  apply bind_abort
  cases o' with
  | ok => simp [abort] at ho
  | raise e v =>
    simp only [abort, Option.some.injEq] at hq ho; subst hq ho; rw [hpw]; rfl
  | hang =>
    simp only [abort, Option.some.injEq] at hq ho; subst hq ho; rw [hpw]; rfl

theorem abort_any {o : Out W β} {q : Out W γ} (h : abort o = some q) (α : Type) :
    ∃ r : Out W α, abort o = some r := by
  cases o with
  | ok => simp [abort] at h
  | raise e v => exact ⟨_, rfl⟩
  | hang => exact ⟨_, rfl⟩

/-! ## Which calls there are -/

/-- Whatever the function does, one of two things happens when it is called for the elements
of a list from left to right: all calls return, or there is a first one that does not.  Only
one of them happens and in one way only.  Thus the theorems below, which have a part for
each, say what happens in all cases. -/
theorem C80_cases (f : α → Prog W β) (w : W) (xs : List α) :
    ((∃ ys w', Calls f w xs ys w') ∨
     (∃ pre x post ys w1 o, xs = pre ++ x :: post ∧ Calls f w pre ys w1 ∧
        (abort (f x w1) : Option (Out W β)) = some o)) ∧
    (∀ ys w' ys' w'', Calls f w xs ys w' → Calls f w xs ys' w'' → ys = ys' ∧ w' = w'') ∧
    (∀ ys w', Calls f w xs ys w' → ys.length = xs.length ∧
      ∀ pre x post, xs = pre ++ x :: post →
        ∃ zs w1 z w2, Calls f w pre zs w1 ∧ f x w1 = .ok z w2) := by
  refine ⟨?_, ?_, ?_⟩
  · induction xs generalizing w with
    | nil => exact Or.inl ⟨[], w, Calls.nil w⟩
    | cons x xs ih =>
      cases h : f x w with
      | ok y w1 =>
        rcases ih w1 with ⟨ys, w', hc⟩ | ⟨pre, x', post, ys, w2, o, rfl, hc, ha⟩
        · exact Or.inl ⟨y :: ys, w', Calls.cons h hc⟩
        · exact Or.inr ⟨x :: pre, x', post, y :: ys, w2, o, rfl, Calls.cons h hc, ha⟩
      | raise e w1 => exact Or.inr ⟨[], x, xs, [], w, _, rfl, Calls.nil w, by rw [h]; rfl⟩
      | hang => exact Or.inr ⟨[], x, xs, [], w, _, rfl, Calls.nil w, by rw [h]; rfl⟩
  · intro ys w' ys' w'' h1
    induction h1 generalizing ys' w'' with
    | nil w => intro h2; cases h2; exact ⟨rfl, rfl⟩
    | cons hf _ ih =>
      intro h2
      cases h2 with
      | cons hf' hc' =>
        rw [hf] at hf'
        simp only [Out.ok.injEq] at hf'
        obtain ⟨rfl, rfl⟩ := hf'
        obtain ⟨rfl, rfl⟩ := ih _ _ hc'
        exact ⟨rfl, rfl⟩
  · intro ys w' h
    induction h with
    | nil w => exact ⟨rfl, by intro pre x post h; simp at h⟩
    | cons hf hc ih =>
      refine ⟨by simp [ih.1], ?_⟩
      intro pre x post h
      cases pre with
      | nil =>
        simp only [List.nil_append, List.cons.injEq] at h
        obtain ⟨rfl, rfl⟩ := h
        exact ⟨[], _, _, _, Calls.nil _, hf⟩
      | cons a pre =>
        simp only [List.cons_append, List.cons.injEq] at h
        obtain ⟨rfl, rfl⟩ := h
        obtain ⟨zs, w1, z, w2, hc', hz⟩ := ih.2 pre x post rfl
        exact ⟨_ :: zs, w1, z, w2, Calls.cons hf hc', hz⟩

/-- A function that records its calls and fails on 13. -/
def logged (x : Nat) : Prog (List Nat) Nat := fun w =>
  if x = 13 then .raise (.user 1) (w ++ [x]) else .ok (x * 10) (w ++ [x])

example : Calls logged [] [1, 2] [10, 20] [1, 2] :=
  Calls.cons rfl (Calls.cons rfl (Calls.nil _))

/-! ## Traversals -/

/-- `List.app` and `List.map` call the function for all elements, from left to right; `map`
returns the results in this order.  If a call raises an exception there are no more calls and
the exception is propagated. -/
theorem C80_map (f : α → Prog W β) (g : α → Prog W Unit) (w : W) :
    (∀ xs ys w', Calls f w xs ys w' → map f xs w = .ok ys w') ∧
    (∀ pre x post ys w1 o, Calls f w pre ys w1 → abort (f x w1) = some o →
      map f (pre ++ x :: post) w = o) ∧
    (∀ xs ys w', Calls g w xs ys w' → app g xs w = .ok () w') ∧
    (∀ pre x post ys w1 o, Calls g w pre ys w1 → abort (g x w1) = some o →
      app g (pre ++ x :: post) w = o) := by
  refine ⟨?_, ?_, ?_, ?_⟩
  · intro xs ys w' h
    induction h with
    | nil w => rfl
    | cons hf _ ih => rw [map, bind_ok hf, bind_ok ih]; rfl
  · intro pre x post ys w1 o h ha
    induction h with
    | nil w => rw [List.nil_append, map, bind_abort ha]
    | cons hf _ ih =>
      rw [List.cons_append, map, bind_ok hf]
      exact bind_of_abort ⟨o, ha, ih ha⟩ ha
  · intro xs ys w' h
    induction h with
    | nil w => rfl
    | cons hf _ ih => rw [app, bind_ok hf]; exact ih
  · intro pre x post ys w1 o h ha
    induction h with
    | nil w => rw [List.nil_append, app, bind_abort ha]
    | cons hf _ ih => rw [List.cons_append, app, bind_ok hf]; exact ih ha

example : map logged [1, 2, 3] [] = .ok [10, 20, 30] [1, 2, 3] ∧
    map logged [1, 13, 3] [] = .raise (.user 1) [1, 13] := by decide +kernel

/-- `List.mapPartial` calls the function for all elements, from left to right, and returns
those results that are there; `List.filter` and `List.partition` return the elements for which
the predicate was true (and the others), in the order of the list. -/
theorem C80_filter (f : α → Prog W (Option β)) (p : α → Prog W Bool) (w : W) :
    (∀ xs ys w', Calls f w xs ys w' → mapPartial f xs w = .ok (ys.filterMap id) w') ∧
    (∀ pre x post ys w1 o, Calls f w pre ys w1 → abort (f x w1) = some o →
      mapPartial f (pre ++ x :: post) w = o) ∧
    (∀ xs bs w', Calls p w xs bs w' →
      filter p xs w = .ok (((xs.zip bs).filter (·.2)).map (·.1)) w' ∧
      partition p xs w = .ok (((xs.zip bs).filter (·.2)).map (·.1),
        ((xs.zip bs).filter (fun q => !q.2)).map (·.1)) w') ∧
    (∀ pre x post bs w1, Calls p w pre bs w1 →
      (∀ o, abort (p x w1) = some o → filter p (pre ++ x :: post) w = o) ∧
      (∀ o, abort (p x w1) = some o → partition p (pre ++ x :: post) w = o)) := by
  have hrev : ∀ xs ys : List α, revAcc xs ys = xs.reverse ++ ys := by
    intro xs
    induction xs with
    | nil => intro ys; rfl
    | cons x xs ih => intro ys; simp [revAcc, ih]
  refine ⟨?_, ?_, ?_, ?_⟩
  · intro xs ys w' h
    induction h with
    | nil w => rfl
    | @cons w w1 w2 x xs y ys hf _ ih =>
      rw [mapPartial, bind_ok hf]
      cases y with
      | none => simpa using ih
      | some y => simp only; rw [bind_ok ih]; simp [pure_apply]
  · intro pre x post ys w1 o h ha
    induction h with
    | nil w => rw [List.nil_append, mapPartial, bind_abort ha]
    | @cons w w1 w2 x xs y ys hf _ ih =>
      rw [List.cons_append, mapPartial, bind_ok hf]
      cases y with
      | none => exact ih ha
      | some y => exact bind_of_abort ⟨o, ha, ih ha⟩ ha
  · intro xs bs w' h
    constructor
    · induction h with
      | nil w => rfl
      | @cons w w1 w2 x xs y ys hf _ ih =>
        rw [filter, bind_ok hf]
        cases y with
        | false => simpa using ih
        | true => simp only [if_true]; rw [bind_ok ih]; simp [pure_apply]
    · have key : ∀ are arent, partitionH p xs are arent w =
          .ok (are.reverse ++ ((xs.zip bs).filter (·.2)).map (·.1),
            arent.reverse ++ ((xs.zip bs).filter (fun q => !q.2)).map (·.1)) w' := by
        induction h with
        | nil w => intro are arent; simp [partitionH, rev, hrev, pure_apply]
        | @cons w w1 w2 x xs y ys hf _ ih =>
          intro are arent
          rw [partitionH, bind_ok hf]
          cases y with
          | false => simp [ih]
          | true => simp [ih]
      simpa [partition] using key [] []
  · intro pre x post bs w1 h
    constructor
    · intro o ha
      induction h with
      | nil w => rw [List.nil_append, filter, bind_abort ha]
      | @cons w w1 w2 x xs y ys hf _ ih =>
        rw [List.cons_append, filter, bind_ok hf]
        cases y with
        | false => simpa using ih ha
        | true => simp only [if_true]; exact bind_of_abort ⟨o, ha.trans rfl, ih ha⟩ ha
    · intro o ha
      have key : ∀ are arent, partitionH p (pre ++ x :: post) are arent w = o := by
        induction h with
        | nil w => intro are arent; rw [List.nil_append, partitionH, bind_abort ha]
        | @cons w w1 w2 x xs y ys hf _ ih =>
          intro are arent
          rw [List.cons_append, partitionH, bind_ok hf]
          cases y with
          | false => simpa using ih ha _ _
          | true => simpa using ih ha _ _
      exact key [] []

/-- A predicate that records its calls: the number is even; it fails on 13. -/
def evenL (x : Nat) : Prog (List Nat) Bool := fun w =>
  if x = 13 then .raise (.user 1) (w ++ [x]) else .ok (x % 2 == 0) (w ++ [x])

example : Calls evenL [] [1, 2, 4] [false, true, true] [1, 2, 4] :=
  Calls.cons rfl (Calls.cons rfl (Calls.cons rfl (Calls.nil _)))

example : partition evenL [1, 2, 4, 7] [] = .ok ([2, 4], [1, 7]) [1, 2, 4, 7] := by
  decide +kernel

/-- `List.find`, `List.exists` and `List.all` call the predicate from left to right until it
says true (`all`: false), and not once more after that. -/
theorem C80_search (p : α → Prog W Bool) (w : W) :
    (∀ xs n w', Calls p w xs (List.replicate n false) w' →
      find p xs w = .ok none w' ∧ «exists» p xs w = .ok false w') ∧
    (∀ xs n w', Calls p w xs (List.replicate n true) w' → all p xs w = .ok true w') ∧
    (∀ pre x post n w1 w2, Calls p w pre (List.replicate n false) w1 →
      p x w1 = .ok true w2 →
      find p (pre ++ x :: post) w = .ok (some x) w2 ∧
      «exists» p (pre ++ x :: post) w = .ok true w2) ∧
    (∀ pre x post n w1 w2, Calls p w pre (List.replicate n true) w1 →
      p x w1 = .ok false w2 → all p (pre ++ x :: post) w = .ok false w2) ∧
    (∀ pre x post n w1, Calls p w pre (List.replicate n false) w1 →
      (∀ o, abort (p x w1) = some o → find p (pre ++ x :: post) w = o) ∧
      (∀ o, abort (p x w1) = some o → «exists» p (pre ++ x :: post) w = o)) ∧
    (∀ pre x post n w1, Calls p w pre (List.replicate n true) w1 →
      (∀ o, abort (p x w1) = some o → all p (pre ++ x :: post) w = o)) := by
  have keyF : ∀ (w : W) pre n w1 rest, Calls p w pre (List.replicate n false) w1 →
      find p (pre ++ rest) w = find p rest w1 ∧
      «exists» p (pre ++ rest) w = «exists» p rest w1 := by
    intro w pre n w1 rest h
    generalize hb : List.replicate n false = bs at h
    induction h generalizing n with
    | nil w => exact ⟨rfl, rfl⟩
    | @cons w w1 w2 x xs y ys hf _ ih =>
      cases n with
      | zero => simp at hb
      | succ n =>
        simp only [List.replicate_succ, List.cons.injEq] at hb
        obtain ⟨rfl, hb⟩ := hb
        rw [List.cons_append, find, «exists», bind_ok hf, bind_ok hf]
        exact ih n hb
  have keyA : ∀ (w : W) pre n w1 rest, Calls p w pre (List.replicate n true) w1 →
      all p (pre ++ rest) w = all p rest w1 := by
    intro w pre n w1 rest h
    generalize hb : List.replicate n true = bs at h
    induction h generalizing n with
    | nil w => rfl
    | @cons w w1 w2 x xs y ys hf _ ih =>
      cases n with
      | zero => simp at hb
      | succ n =>
        simp only [List.replicate_succ, List.cons.injEq] at hb
        obtain ⟨rfl, hb⟩ := hb
        rw [List.cons_append, all, bind_ok hf]
        exact ih n hb
  refine ⟨?_, ?_, ?_, ?_, ?_, ?_⟩
  · intro xs n w' h
    have := keyF w xs n w' [] h
    simpa [find, «exists», pure_apply] using this
  · intro xs n w' h
    have := keyA w xs n w' [] h
    simpa [all, pure_apply] using this
  · intro pre x post n w1 w2 h hx
    have := keyF w pre n w1 (x :: post) h
    rw [this.1, this.2, find, «exists», bind_ok hx, bind_ok hx]
    exact ⟨rfl, rfl⟩
  · intro pre x post n w1 w2 h hx
    rw [keyA w pre n w1 (x :: post) h, all, bind_ok hx]; rfl
  · intro pre x post n w1 h
    have := keyF w pre n w1 (x :: post) h
    rw [this.1, this.2, find, «exists»]
    exact ⟨fun o ha => bind_abort ha, fun o ha => bind_abort ha⟩
  · intro pre x post n w1 h o ha
    rw [keyA w pre n w1 (x :: post) h, all, bind_abort ha]

example : Calls evenL [] [1, 3] (List.replicate 2 false) [1, 3] ∧
    find evenL [1, 3, 6, 13] [] = .ok (some 6) [1, 3, 6] := by
  refine ⟨Calls.cons rfl (Calls.cons rfl (Calls.nil _)), by decide +kernel⟩

/-- `List.foldl` calls the function for the elements from left to right, `List.foldr` from
right to left; each call receives the result of the one before, the first one `e`. -/
theorem C80_fold (f : α → β → Prog W β) (e : β) (w : W) :
    (∀ xs r w', Thread f w xs e r w' → foldl f e xs w = .ok r w') ∧
    (∀ pre x post r w1 o, Thread f w pre e r w1 → abort (f x r w1) = some o →
      foldl f e (pre ++ x :: post) w = o) ∧
    (∀ xs r w', Thread f w xs.reverse e r w' → foldr f e xs w = .ok r w') ∧
    (∀ pre x post r w1 o, Thread f w post.reverse e r w1 → abort (f x r w1) = some o →
      foldr f e (pre ++ x :: post) w = o) := by
  have hl : ∀ (xs rest : List α) (e r : β) (w w1 : W), Thread f w xs e r w1 →
      foldl f e (xs ++ rest) w = foldl f r rest w1 := by
    intro xs rest e r w w1 h
    induction h with
    | nil => rfl
    | cons hf _ ih => rw [List.cons_append, foldl, bind_ok hf]; exact ih
  have happ : ∀ (xs : List α) (x : α) (e r : β) (w w2 : W), Thread f w (xs ++ [x]) e r w2 →
      ∃ b w1, Thread f w xs e b w1 ∧ f x b w1 = .ok r w2 := by
    intro xs
    induction xs with
    | nil =>
      intro x e r w w2 h
      cases h with
      | cons hf hc => cases hc; exact ⟨e, w, Thread.nil w e, hf⟩
    | cons a xs ih =>
      intro x e r w w2 h
      cases h with
      | cons hf hc =>
        obtain ⟨b, w1, ht, hx⟩ := ih x _ r _ w2 hc
        exact ⟨b, w1, Thread.cons hf ht, hx⟩
  have hr : ∀ (xs : List α) (r : β) (w' : W), Thread f w xs.reverse e r w' →
      foldr f e xs w = .ok r w' := by
    intro xs
    induction xs with
    | nil => intro r w' h; cases h; rfl
    | cons x xs ih =>
      intro r w' h
      rw [List.reverse_cons] at h
      obtain ⟨b, w1, ht, hx⟩ := happ _ _ _ _ _ _ h
      rw [foldr, bind_ok (ih b w1 ht)]; exact hx
  refine ⟨?_, ?_, hr, ?_⟩
  · intro xs r w' h
    have := hl xs [] e r w w' h
    simpa [foldl, pure_apply] using this
  · intro pre x post r w1 o h ha
    rw [hl pre _ e r w w1 h, foldl, bind_abort ha]
  · intro pre x post r w1 o h ha
    induction pre with
    | nil => rw [List.nil_append, foldr, bind_ok (hr post r w1 h)]
             cases hq : f x r w1 with
             | ok => rw [hq] at ha; simp [abort] at ha
             | raise e' v => rw [hq] at ha; simpa [abort] using ha
             | hang => rw [hq] at ha; simpa [abort] using ha
    | cons a pre ih =>
      rw [List.cons_append, foldr]
      exact bind_of_abort ⟨o, ha, ih⟩ ha

/-- Adds to the front and records. -/
def pushL (x : Nat) (b : List Nat) : Prog (List Nat) (List Nat) := fun w => .ok (x :: b) (w ++ [x])

example : Thread pushL [] [1, 2] [] [2, 1] [1, 2] :=
  Thread.cons rfl (Thread.cons rfl (Thread.nil _ _))

example : foldl pushL [] [1, 2, 3] [] = .ok [3, 2, 1] [1, 2, 3] ∧
    foldr pushL [] [1, 2, 3] [] = .ok [1, 2, 3] [3, 2, 1] := by decide +kernel

/-! ## Positions and lengths -/

/-- `List.hd`, `tl`, `last`, `nth`, `take` and `drop` return the elements in question or raise
Empty or Subscript when there are none such, for every integer. -/
theorem C80_access (xs : List α) (n : Int) (hn : n ≤ maxInt) (w : W) :
    (hd xs w = match xs.head? with | some x => .ok x w | none => .raise .empty w) ∧
    (tl xs w = if xs = [] then .raise .empty w else .ok xs.tail w) ∧
    (last xs w = match xs.getLast? with | some x => .ok x w | none => .raise .empty w) ∧
    (∀ (_ : 0 ≤ n) (h : n < xs.length), nth xs n w = .ok (xs[n.toNat]'(by omega)) w) ∧
    (n < 0 ∨ xs.length ≤ n → nth xs n w = .raise .subscript w) ∧
    (0 ≤ n → n ≤ xs.length → ∃ ys zs, xs = ys ++ zs ∧ (ys.length : Int) = n ∧
      take xs n w = .ok ys w ∧ drop xs n w = .ok zs w) ∧
    (n < 0 ∨ xs.length < n →
      take xs n w = .raise .subscript w ∧ drop xs n w = .raise .subscript w) ∧
    (null xs = true ↔ xs = []) ∧
    (getItem xs = xs.head?.map (fun x => (x, xs.tail))) := by
  have hmi : minInt = -4611686018427387904 := rfl
  refine ⟨?_, ?_, ?_, ?_, ?_, ?_, ?_, ?_, ?_⟩
  · cases xs <;> rfl
  · cases xs <;> rfl
  · induction xs with
    | nil => rfl
    | cons x xs ih =>
      cases xs with
      | nil => rfl
      | cons y xs => rw [last, ih]; simp [List.getLast?_cons_cons]
  · intro h0 h
    rw [nth, if_neg (by omega)]
    induction xs generalizing n with
    | nil => simp at h; omega
    | cons x xs ih =>
      rw [nthH]
      by_cases hz : n = 0
      · subst hz; rfl
      · have hl : n - 1 < xs.length := by simp at h; omega
        rw [if_neg hz, chk, if_pos (by omega), ih (n - 1) (by omega) (by omega) hl]
        obtain ⟨k, rfl⟩ : ∃ k : Nat, n = k + 1 := ⟨(n - 1).toNat, by omega⟩
        simp
  · intro h
    rw [nth]
    split
    · rfl
    · have h' : (xs.length : Int) ≤ n := by omega
      clear h
      induction xs generalizing n with
      | nil => rfl
      | cons x xs ih =>
        simp only [List.length_cons] at h'
        rw [nthH, if_neg (by omega), chk, if_pos (by omega)]
        exact ih (n - 1) (by omega) (by omega) (by omega)
  · intro h0 h
    rw [take, drop, if_neg (by omega), if_neg (by omega)]
    induction xs generalizing n with
    | nil =>
      have : n = 0 := by simp at h; omega
      subst this
      exact ⟨[], [], rfl, rfl, rfl, rfl⟩
    | cons x xs ih =>
      by_cases hz : n = 0
      · subst hz; exact ⟨[], x :: xs, rfl, rfl, rfl, rfl⟩
      · simp only [List.length_cons] at h
        obtain ⟨ys, zs, e, hl, ht, hd⟩ := ih (n - 1) (by omega) (by omega) (by omega)
        refine ⟨x :: ys, zs, by rw [e]; rfl, by simp; omega, ?_, ?_⟩
        · rw [takeH, if_neg hz, chk, if_pos (by omega), bind_ok ht]; rfl
        · rw [dropH, if_neg hz, chk, if_pos (by omega)]; exact hd
  · intro h
    rw [take, drop]
    split
    · exact ⟨rfl, rfl⟩
    · have h' : (xs.length : Int) < n := by omega
      clear h
      induction xs generalizing n with
      | nil =>
        have : n ≠ 0 := by simp at h'; omega
        simp [takeH, dropH, this, Prog.throw]
      | cons x xs ih =>
        simp only [List.length_cons] at h'
        obtain ⟨ht, hd⟩ := ih (n - 1) (by omega) (by omega) (by omega)
        rw [takeH, dropH, if_neg (by omega), if_neg (by omega), chk, chk, if_pos (by omega),
          if_pos (by omega)]
        refine ⟨?_, hd⟩
        apply bind_abort; rw [ht]; rfl
  · cases xs <;> simp [null]
  · cases xs <;> rfl

example : (2 : Int) ≤ maxInt ∧ nth [5, 6, 7] 2 () = .ok 7 () ∧
    take [5, 6] 3 () = .raise .subscript () := by
  refine ⟨by decide, by decide +kernel, by decide +kernel⟩

/-- `length`, `rev`, `revAppend`, `@` and `concat`. -/
theorem C80_build (xs ys : List α) (xss : List (List α)) (w : W) :
    ((xs.length : Int) ≤ maxInt → length xs w = .ok (xs.length : Int) w) ∧
    rev xs = xs.reverse ∧ revAppend xs ys = xs.reverse ++ ys ∧
    append xs ys = xs ++ ys ∧ concat xss = xss.flatten := by
  have hrev : ∀ xs ys : List α, revAcc xs ys = xs.reverse ++ ys := by
    intro xs
    induction xs with
    | nil => intro ys; rfl
    | cons x xs ih => intro ys; simp [revAcc, ih]
  have happ : ∀ xs ys : List α, append xs ys = xs ++ ys := by
    intro xs ys
    have h : ∀ xs ys : List α, appendL xs ys = xs ++ ys := by
      intro xs
      induction xs with
      | nil => intro ys; rfl
      | cons x xs ih => intro ys; simp [appendL, ih]
    cases ys with
    | nil => simp [append]
    | cons y ys => simp [append, h]
  refine ⟨?_, by simp [rev, hrev], by simp [revAppend, hrev], happ xs ys, ?_⟩
  · intro h
    have hmi : minInt = -4611686018427387904 := rfl
    have key : ∀ (xs : List α) (k : Int), 0 ≤ k → k + xs.length ≤ maxInt →
        lengthAcc xs k w = .ok (k + xs.length) w := by
      intro xs
      induction xs with
      | nil => intro k _ _; simp [lengthAcc, pure_apply]
      | cons x xs ih =>
        intro k h0 hk
        simp only [List.length_cons] at hk
        rw [lengthAcc, chk, if_pos (by omega), ih (k + 1) (by omega) (by omega)]
        simp only [List.length_cons]
        congr 1
        omega
    simpa [length] using key xs 0 (by omega) (by omega)
  · induction xss with
    | nil => rfl
    | cons a r ih => simp [concat, happ, ih]

example : (([1, 2, 3] : List Nat).length : Int) ≤ maxInt := by decide

/-- `List.tabulate(n, f)` calls `f` for 0, 1, ..., n-1 in this order and returns the results;
it raises Size if n<0, without any call. -/
theorem C80_tabulate (n : Int) (hn : n ≤ maxInt) (f : Int → Prog W α) (w : W) :
    (n < 0 → tabulate n f w = .raise .size w) ∧
    (0 ≤ n → ∀ ys w', Calls f w ((List.range n.toNat).map Int.ofNat) ys w' →
      tabulate n f w = .ok ys w') ∧
    (∀ k : Nat, (k : Int) < n → ∀ ys w1 o, Calls f w ((List.range k).map Int.ofNat) ys w1 →
      abort (f k w1) = some o → tabulate n f w = o) := by
  have hmi : minInt = -4611686018427387904 := rfl
  have key : ∀ (m : Nat) (i : Nat) (w : W), ((i : Int) + m = n) →
      tabulateH n f i w = map f ((List.range' i m).map Int.ofNat) w := by
    intro m
    induction m with
    | zero => intro i w h; rw [tabulateH, dif_neg (by omega)]; rfl
    | succ m ih =>
      intro i w h
      rw [tabulateH, dif_pos (by omega), List.range'_succ, List.map_cons, map]
      cases hf : f (i : Int) w with
      | raise e w1 =>
        rw [bind_abort (o := .raise e w1) (by rw [hf]; rfl),
          bind_abort (o := .raise e w1) (by show abort (f (i : Int) w) = _; rw [hf]; rfl)]
      | hang =>
        rw [bind_abort (o := .hang) (by rw [hf]; rfl),
          bind_abort (o := .hang) (by show abort (f (i : Int) w) = _; rw [hf]; rfl)]
      | ok y w1 =>
        rw [bind_ok hf, bind_ok (p := f (Int.ofNat i)) hf, chk, if_pos (by omega)]
        have := ih (i + 1) w1 (by omega)
        show Prog.andThen _ _ _ = Prog.andThen _ _ _
        simp only [Prog.andThen]
        rw [show ((i : Int) + 1) = ((i + 1 : Nat) : Int) by omega, this]
  refine ⟨?_, ?_, ?_⟩
  · intro h; rw [tabulate, if_pos h]; rfl
  · intro h ys w' hc
    rw [tabulate, if_neg (by omega)]
    have := key n.toNat 0 w (by omega)
    rw [← List.range_eq_range'] at this
    exact this.trans ((C80_map f (fun _ => pure ()) w).1 _ _ _ hc)
  · intro k hk ys w1 o hc ha
    rw [tabulate, if_neg (by omega)]
    have := key n.toNat 0 w (by omega)
    rw [← List.range_eq_range'] at this
    refine this.trans ?_
    obtain ⟨d, hd⟩ : ∃ d : Nat, n.toNat = k + (1 + d) := ⟨n.toNat - k - 1, by omega⟩
    have hs : (List.range n.toNat).map Int.ofNat =
        (List.range k).map Int.ofNat ++ (k : Int) ::
          ((List.range' (k + 1) d).map Int.ofNat) := by
      rw [hd, List.range_eq_range', ← List.range'_append_1, List.map_append, Nat.zero_add,
        Nat.add_comm 1 d, List.range'_succ, ← List.range_eq_range']
      rfl
    rw [hs]
    exact (C80_map f (fun _ => pure ()) w).2.1 _ _ _ _ _ _ hc ha

example : tabulate 3 (fun i => (fun w => .ok (i * i) (w ++ [i]) : Prog (List Int) Int)) [] =
    .ok [0, 1, 4] [0, 1, 2] ∧ (3 : Int) ≤ maxInt := by
  refine ⟨?_, by decide⟩
  refine (C80_tabulate 3 (by decide) _ []).2.1 (by decide) _ _ ?_
  exact Calls.cons rfl (Calls.cons rfl (Calls.cons rfl (Calls.nil _)))

/-! ## Lexicographic order -/

/-- `List.collate cmp` compares the elements from left to right until a comparison is not
EQUAL; with an order `cmp` it decides the lexicographic one. -/
theorem C80_collate (cmp : α → α → Prog W Ordering) (w : W) :
    (∀ pre pre' x y xr yr n w1, Calls (fun q : α × α => cmp q.1 q.2) w (pre.zip pre')
        (List.replicate n .eq) w1 → pre.length = pre'.length →
      (∀ r w2, cmp x y w1 = .ok r w2 → r ≠ .eq →
        collate cmp (pre ++ x :: xr) (pre' ++ y :: yr) w = .ok r w2) ∧
      (∀ o, abort (cmp x y w1) = some o →
        collate cmp (pre ++ x :: xr) (pre' ++ y :: yr) w = o) ∧
      collate cmp pre (pre' ++ y :: yr) w = .ok .lt w1 ∧
      collate cmp (pre ++ x :: xr) pre' w = .ok .gt w1 ∧
      collate cmp pre pre' w = .ok .eq w1) ∧
    (∀ (c : α → α → Ordering), (∀ x y, c x y = .eq ↔ x = y) →
      ∀ xs ys : List α, ∃ r, collate (fun x y => pureFn (fun _ => c x y) ()) xs ys w = .ok r w ∧
        (r = .eq ↔ xs = ys) ∧
        (r = .lt ↔ Before (fun x y => c x y = .lt) xs ys) ∧
        (r = .gt ↔ Before (fun x y => c y x = .gt) ys xs)) := by
  constructor
  · intro pre pre' x y xr yr n w1 h hl
    have key : ∀ a b : List α, collate cmp (pre ++ a) (pre' ++ b) w = collate cmp a b w1 := by
      induction pre generalizing pre' n w with
      | nil =>
        cases pre' with
        | nil =>
          generalize List.replicate n Ordering.eq = bs at h
          cases h; intro a b; rfl
        | cons => simp at hl
      | cons p pre ih =>
        cases pre' with
        | nil => simp at hl
        | cons q pre' =>
          rw [List.zip_cons_cons] at h
          cases n with
          | zero => cases h
          | succ n =>
            rw [List.replicate_succ] at h
            cases h with
            | cons hf hc =>
              intro a b
              rw [List.cons_append, List.cons_append, collate, bind_ok hf]
              exact ih _ _ _ hc (by simpa using hl) a b
    refine ⟨?_, ?_, ?_, ?_, ?_⟩
    · intro r w2 hr hne
      rw [key, collate, bind_ok hr]
      cases r with
      | eq => exact absurd rfl hne
      | lt => rfl
      | gt => rfl
    · intro o ha
      rw [key, collate, bind_abort ha]
    · have := key [] (y :: yr); rw [List.append_nil] at this; rw [this]; rfl
    · have := key (x :: xr) []; rw [List.append_nil] at this; rw [this]; rfl
    · have := key [] []; rw [List.append_nil, List.append_nil] at this; rw [this]; rfl
  · intro c hc xs
    have hcons : ∀ (lt : α → α → Prop), (∀ x, ¬ lt x x) → ∀ x y xs ys,
        Before lt (x :: xs) (y :: ys) ↔ (lt x y ∨ (x = y ∧ Before lt xs ys)) := by
      intro lt hirr x y xs ys
      constructor
      · rintro (⟨z, zs, h⟩ | ⟨pre, a, ar, b, br, h1, h2, hab⟩)
        · simp only [List.cons_append, List.cons.injEq] at h
          obtain ⟨rfl, rfl⟩ := h
          exact Or.inr ⟨rfl, Or.inl ⟨z, zs, rfl⟩⟩
        · cases pre with
          | nil =>
            simp only [List.nil_append, List.cons.injEq] at h1 h2
            obtain ⟨rfl, rfl⟩ := h1
            obtain ⟨rfl, rfl⟩ := h2
            exact Or.inl hab
          | cons p pre =>
            simp only [List.cons_append, List.cons.injEq] at h1 h2
            obtain ⟨rfl, rfl⟩ := h1
            obtain ⟨rfl, rfl⟩ := h2
            exact Or.inr ⟨rfl, Or.inr ⟨pre, a, ar, b, br, rfl, rfl, hab⟩⟩
      · rintro (h | ⟨rfl, h⟩)
        · exact Or.inr ⟨[], x, xs, y, ys, rfl, rfl, h⟩
        · rcases h with ⟨z, zs, rfl⟩ | ⟨pre, a, ar, b, br, rfl, rfl, hab⟩
          · exact Or.inl ⟨z, zs, rfl⟩
          · exact Or.inr ⟨x :: pre, a, ar, b, br, rfl, rfl, hab⟩
    have hnil : ∀ (lt : α → α → Prop) xs, ¬ Before lt xs [] := by
      rintro lt xs (⟨y, zs, h⟩ | ⟨pre, a, ar, b, br, h1, h2, hab⟩) <;> simp at *
    have hnil' : ∀ (lt : α → α → Prop) y ys, Before lt [] (y :: ys) :=
      fun lt y ys => Or.inl ⟨y, ys, rfl⟩
    have i1 : ∀ x, ¬ c x x = .lt := by
      intro x h; rw [(hc x x).2 rfl] at h; cases h
    have i2 : ∀ x, ¬ c x x = .gt := by
      intro x h; rw [(hc x x).2 rfl] at h; cases h
    induction xs with
    | nil =>
      intro ys
      cases ys with
      | nil => exact ⟨.eq, rfl, by simp, by simp [hnil], by simp [hnil]⟩
      | cons y ys => exact ⟨.lt, rfl, by simp, by simp [hnil'], by simp [hnil]⟩
    | cons x xs ih =>
      intro ys
      cases ys with
      | nil => exact ⟨.gt, rfl, by simp, by simp [hnil], by simp [hnil']⟩
      | cons y ys =>
        rw [hcons _ i1, hcons (fun x y => c y x = .gt) i2]
        rw [collate, bind_ok (p := pureFn (fun _ => c x y) ()) (a := c x y) (w' := w) rfl]
        cases hxy : c x y with
        | eq =>
          have := (hc x y).1 hxy
          subst this
          obtain ⟨r, h1, h2, h3, h4⟩ := ih ys
          exact ⟨r, h1, by simp [h2], by simp [h3], by simp [h4]⟩
        | lt =>
          have hne : x ≠ y := fun h => by rw [(hc x y).2 h] at hxy; cases hxy
          exact ⟨.lt, rfl, by simp [hne], by simp, by simp [hne.symm]⟩
        | gt =>
          have hne : x ≠ y := fun h => by rw [(hc x y).2 h] at hxy; cases hxy
          exact ⟨.gt, rfl, by simp [hne], by simp [hne], by simp⟩

example : ∀ x y : Nat, compare x y = .eq ↔ x = y := fun _ _ => Nat.compare_eq_eq

/-! ## Pairs of lists -/

namespace Pair

theorem rev_eq (xs : List α) : rev xs = xs.reverse := (C80_build xs [] [] ()).2.1

/-- The functions of ListPair work on corresponding elements and disregard the excess of the
longer list: `zip` and `unzip` are inverse on lists of equal length, and each other function
has the same result and effect as its namesake on the zipped list. -/
theorem C80_pairs (xs : List α) (ys : List β) (xys : List (α × β)) :
    zip xs ys = xs.zip ys ∧ unzip xys = (xys.map (·.1), xys.map (·.2)) ∧
    zip (unzip xys).1 (unzip xys).2 = xys ∧
    (xs.length = ys.length → unzip (zip xs ys) = (xs, ys)) ∧
    (∀ f : α × β → Prog W γ, map f xs ys = Lists.map f (xs.zip ys)) ∧
    (∀ f : α × β → Prog W Unit, app f xs ys = Lists.app f (xs.zip ys)) ∧
    (∀ p : α × β → Prog W Bool, all p xs ys = Lists.all p (xs.zip ys) ∧
      «exists» p xs ys = Lists.exists p (xs.zip ys) ∧
      «exists» p xs ys = (do
        let b ← all (fun q => do let c ← p q; pure (!c)) xs ys
        pure (!b))) ∧
    (∀ (f : α → β → γ → Prog W γ) (e : γ),
      foldr f e xs ys = Lists.foldr (fun q r => f q.1 q.2 r) e (xs.zip ys) ∧
      foldl f e xs ys = Lists.foldl (fun q r => f q.1 q.2 r) e (xs.zip ys)) := by
  have hzip : ∀ (xs : List α) (ys : List β) res, zipH xs ys res = res.reverse ++ xs.zip ys := by
    intro xs
    induction xs with
    | nil => intro ys res; cases ys <;> simp [zipH, rev_eq]
    | cons x xs ih =>
      intro ys res
      cases ys with
      | nil => simp [zipH, rev_eq]
      | cons y ys => simp [zipH, ih]
  have hunz : ∀ (xys : List (α × β)) as bs,
      unzipH xys as bs = (as.reverse ++ xys.map (·.1), bs.reverse ++ xys.map (·.2)) := by
    intro xys
    induction xys with
    | nil => intro as bs; simp [unzipH, rev_eq]
    | cons q xys ih => intro as bs; obtain ⟨x, y⟩ := q; simp [unzipH, ih]
  have hz : ∀ (xs : List α) (ys : List β), zip xs ys = xs.zip ys := fun xs ys => by
    simp [zip, hzip]
  have hu : ∀ xys : List (α × β), unzip xys = (xys.map (·.1), xys.map (·.2)) := fun xys => by
    simp [unzip, hunz]
  refine ⟨hz xs ys, hu xys, ?_, ?_, ?_, ?_, ?_, ?_⟩
  · rw [hu, hz]
    induction xys with
    | nil => rfl
    | cons q r ih => simp only [List.map_cons, List.zip_cons_cons, ih]
  · intro h
    rw [hz, hu]
    induction xs generalizing ys with
    | nil => cases ys with
      | nil => rfl
      | cons => simp at h
    | cons x xs ih => cases ys with
      | nil => simp at h
      | cons y ys =>
        have := ih ys (by simpa using h)
        simp only [Prod.mk.injEq] at this
        simp only [List.zip_cons_cons, List.map_cons, this]
  · intro f
    have key : ∀ (xs : List α) (ys : List β) res, mapH f xs ys res = (do
        let r ← Lists.map f (xs.zip ys)
        pure (res.reverse ++ r)) := by
      intro xs
      induction xs with
      | nil => intro ys res; cases ys <;> simp [mapH, rev_eq, Lists.map, pure_bind]
      | cons x xs ih =>
        intro ys res
        cases ys with
        | nil => simp [mapH, rev_eq, Lists.map, pure_bind]
        | cons y ys =>
          rw [mapH, List.zip_cons_cons, Lists.map, bind_assoc]
          apply bind_congr; intro z
          rw [ih, bind_assoc]
          apply bind_congr; intro r
          rw [pure_bind]; simp
    rw [map, key]
    simpa using bind_pure _
  · intro f
    induction xs generalizing ys with
    | nil => cases ys <;> rfl
    | cons x xs ih =>
      cases ys with
      | nil => rfl
      | cons y ys =>
        rw [app, List.zip_cons_cons, Lists.app]
        apply bind_congr; intro _; exact ih ys
  · intro p
    have ha : ∀ (p : α × β → Prog W Bool) (xs : List α) (ys : List β),
        all p xs ys = Lists.all p (xs.zip ys) := by
      intro p xs
      induction xs with
      | nil => intro ys; cases ys <;> rfl
      | cons x xs ih =>
        intro ys
        cases ys with
        | nil => rfl
        | cons y ys =>
          rw [all, List.zip_cons_cons, Lists.all]
          apply bind_congr; intro b; rw [ih ys]
    refine ⟨ha p xs ys, ?_, ?_⟩
    · induction xs generalizing ys with
      | nil => cases ys <;> rfl
      | cons x xs ih =>
        cases ys with
        | nil => rfl
        | cons y ys =>
          rw [«exists», List.zip_cons_cons, Lists.exists]
          apply bind_congr; intro b; rw [ih ys]
    · induction xs generalizing ys with
      | nil => cases ys <;> rfl
      | cons x xs ih =>
        cases ys with
        | nil => rfl
        | cons y ys =>
          rw [«exists», all, bind_assoc, bind_assoc]
          apply bind_congr; intro b
          rw [pure_bind]
          cases b with
          | true => rfl
          | false => exact ih ys
  · intro f e
    constructor
    · induction xs generalizing ys with
      | nil => cases ys <;> rfl
      | cons x xs ih =>
        cases ys with
        | nil => rfl
        | cons y ys => rw [foldr, List.zip_cons_cons, Lists.foldr, ih ys]
    · induction xs generalizing ys e with
      | nil => cases ys <;> rfl
      | cons x xs ih =>
        cases ys with
        | nil => rfl
        | cons y ys =>
          rw [foldl, List.zip_cons_cons, Lists.foldl]
          apply bind_congr; intro b; exact ih ys b

example : ([1, 2] : List Nat).length = ([true, false] : List Bool).length := rfl

/-- The functions of ListPair whose names end in `Eq` act like those without it on lists of
equal length.  When the lengths differ, `zipEq` and `foldrEq` raise UnequalLengths without
calling anything; `mapEq`, `appEq` and `foldlEq` make all calls for corresponding elements and
then raise it; `allEq` returns false, after the same calls as `all`. -/
theorem C80_pairs_eq (xs : List α) (ys : List β) :
    (zipEq xs ys = if xs.length = ys.length then (pure (xs.zip ys) : Prog W _)
      else Prog.throw .unequalLengths) ∧
    (∀ f : α × β → Prog W γ, mapEq f xs ys = (do
        let r ← map f xs ys
        if xs.length = ys.length then pure r else Prog.throw .unequalLengths)) ∧
    (∀ f : α × β → Prog W γ, appEq f xs ys = (do
        app (fun q => do let _ ← f q; pure ()) xs ys
        if xs.length = ys.length then pure () else Prog.throw .unequalLengths)) ∧
    (∀ p : α × β → Prog W Bool, allEq p xs ys = (do
        let b ← all p xs ys
        pure (b && decide (xs.length = ys.length)))) ∧
    (∀ (f : α → β → γ → Prog W γ) (e : γ),
      foldrEq f e xs ys = (if xs.length = ys.length then foldr f e xs ys
        else Prog.throw .unequalLengths) ∧
      foldlEq f e xs ys = (do
        let r ← foldl f e xs ys
        if xs.length = ys.length then pure r else Prog.throw .unequalLengths)) := by
  refine ⟨?_, ?_, ?_, ?_, ?_⟩
  · have key : ∀ (xs : List α) (ys : List β) res, zipEqH xs ys res =
        if xs.length = ys.length then (pure (res.reverse ++ xs.zip ys) : Prog W _)
          else Prog.throw .unequalLengths := by
      intro xs
      induction xs with
      | nil => intro ys res; cases ys <;> simp [zipEqH, rev_eq]
      | cons x xs ih =>
        intro ys res
        cases ys with
        | nil => simp [zipEqH]
        | cons y ys => simp [zipEqH, ih]
    simpa [zipEq] using key xs ys []
  · intro f
    have key : ∀ (xs : List α) (ys : List β) res, mapEqH f xs ys res = (do
        let r ← mapH f xs ys res
        if xs.length = ys.length then pure r else Prog.throw .unequalLengths) := by
      intro xs
      induction xs with
      | nil => intro ys res; cases ys <;> rfl
      | cons x xs ih =>
        intro ys res
        cases ys with
        | nil => rfl
        | cons y ys =>
          rw [mapEqH, mapH, bind_assoc]
          apply bind_congr; intro z
          rw [ih]
          simp only [List.length_cons, Nat.add_right_cancel_iff]
    exact key xs ys []
  · intro f
    induction xs generalizing ys with
    | nil => cases ys <;> rfl
    | cons x xs ih =>
      cases ys with
      | nil => rfl
      | cons y ys =>
        rw [appEq, app, bind_assoc, bind_assoc]
        apply bind_congr; intro z
        rw [pure_bind, ih]
        simp only [List.length_cons, Nat.add_right_cancel_iff]
  · intro p
    induction xs generalizing ys with
    | nil => cases ys <;> simp [allEq, all, pure_bind]
    | cons x xs ih =>
      cases ys with
      | nil => simp [allEq, all, pure_bind]
      | cons y ys =>
        rw [allEq, all, bind_assoc]
        apply bind_congr; intro b
        cases b with
        | true =>
          simp only [if_true, List.length_cons, Nat.add_right_cancel_iff]; exact ih ys
        | false => rfl
  · intro f e
    constructor
    · induction xs generalizing ys with
      | nil => cases ys <;> rfl
      | cons x xs ih =>
        cases ys with
        | nil => rfl
        | cons y ys =>
          rw [foldrEq, foldr, ih ys]
          by_cases h : xs.length = ys.length
          · simp [h]
          · simp [h, throw_bind]
    · induction xs generalizing ys e with
      | nil => cases ys <;> rfl
      | cons x xs ih =>
        cases ys with
        | nil => rfl
        | cons y ys =>
          rw [foldlEq, foldl, bind_assoc]
          apply bind_congr; intro b
          rw [ih ys b]
          simp only [List.length_cons, Nat.add_right_cancel_iff]

/-- A function on pairs that records its calls. -/
def addL (q : Nat × Nat) : Prog (List Nat) Nat := fun w => .ok (q.1 + q.2) (w ++ [q.1])

example : mapEq addL [1, 2] [10, 20, 30] [] = .raise .unequalLengths [1, 2] ∧
    map addL [1, 2] [10, 20, 30] [] = .ok [11, 22] [1, 2] := by decide +kernel

end Pair

/-! ## Options -/

namespace Opt

/-- The functions of Option: the documented results and equations; `map`, `join` and `SOME`
form a monad. -/
theorem C80_option (v : α) (a : α) (oo : Option (Option α)) (ooo : Option (Option (Option α))) :
    (getOpt (some v) a = v ∧ getOpt none a = a ∧ isSome (some v) = true ∧
      isSome (none : Option α) = false ∧ (valOf (some v) : Prog W α) = pure v ∧
      (valOf (none : Option α) : Prog W α) = Prog.throw .option) ∧
    (∀ (f : α → Prog W β) (g : γ → Prog W (Option α)) (x : γ),
      map f (some v) = (do let y ← f v; pure (some y)) ∧ map f none = pure none ∧
      compose f g x = (do let r ← g x; map f r)) ∧
    (∀ f : α → Prog W Unit, app f (some v) = f v ∧ app f none = pure ()) ∧
    (∀ (f : α → Prog W (Option β)) (g : γ → Prog W (Option α)) (x : γ) (o : Option α),
      mapPartial f o = (do let r ← map f o; pure (join r)) ∧
      mapPartial f (some v) = f v ∧
      composePartial f g x = (do let r ← g x; mapPartial f r)) ∧
    (∀ p : α → Prog W Bool, filter p v = (do
      let b ← p v
      pure (bif b then some v else none))) ∧
    (join (some (some v)) = some v ∧ join oo = oo.join ∧
      (∀ o : Option α, join (some o) = o) ∧
      (∀ (o : Option α) (w : W), (do
        let r ← map (fun x => pure (some x)) o
        pure (join r) : Prog W (Option α)) w = .ok o w) ∧
      (∀ w : W, (do
        let r ← map (fun x => pure (join x)) ooo
        pure (join r) : Prog W (Option α)) w = .ok (join (join ooo)) w)) := by
  refine ⟨⟨rfl, rfl, rfl, rfl, rfl, rfl⟩, ?_, ?_, ?_, ?_, ?_⟩
  · intro f g x
    refine ⟨rfl, rfl, ?_⟩
    rw [compose]; apply bind_congr; intro r; cases r <;> rfl
  · intro f; exact ⟨rfl, rfl⟩
  · intro f g x o
    refine ⟨?_, rfl, ?_⟩
    · cases o with
      | none => rfl
      | some y =>
        rw [map, bind_assoc]
        exact (bind_pure (f y)).symm
    · rw [composePartial]; apply bind_congr; intro r; cases r <;> rfl
  · intro p
    rw [filter]; apply bind_congr; intro b; cases b <;> rfl
  · refine ⟨rfl, by cases oo <;> rfl, fun o => rfl, ?_, ?_⟩
    · intro o w; cases o <;> rfl
    · intro w; cases ooo <;> rfl

example : compose logged (fun x => (fun w => .ok (some x) (w ++ [0]) : Prog (List Nat) (Option Nat)))
    4 [] = .ok (some 40) [0, 4] := by decide +kernel

end Opt

end Mosml.Lists
