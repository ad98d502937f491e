import Verif.Equal.LemmasHash

/-! C13 polymorphic equality, C14 hashing. -/
namespace Mosml.Equal
open Mosml.Strings (Bytes)

/-- A heap used in the examples: 1 and 2 are the same list cell contents with distinct strings, 5/6 are refs. -/
def exHeap : Heap := fun a => [some (.str [65, 66]), some (.block 1 [.long 3, .ptr 0]), some (.block 1 [.long 3, .ptr 3]),
  some (.str [65, 66]), some (.dbl 0), some (.block 250 [.ptr 5]), some (.block 250 [.ptr 5]), some (.dbl (2 ^ 63)),
  some (.dbl (2047 * 2 ^ 52 + 1)), some (.dbl (2047 * 2 ^ 52 + 1))].getD a none

/-- C13 (partial): for values without NaN and with strings shorter than 2^31, `=` terminates (the bound is the
nesting depth of the first value) and answers true exactly when the values are the same tree, with mutable
objects compared by identity.  The two exclusions are genuine: `C13_nan_violation`, `C13_long_string_violation`. -/
theorem C13_equality_partial (h : Heap) (v1 v2 : Val) (t1 t2 : Tree) (h1 : Reps h v1 t1) (h2 : Reps h v2 t2)
    (hok : t1.Ok) (n : Nat) (hn : t1.height ≤ n) :
    (eqAux n h v1 v2 = some .tt ↔ TreeEq t1 t2) ∧ (eqAux n h v1 v2 = some .ff ↔ ¬ TreeEq t1 t2) := by
  obtain ⟨ht, hf⟩ := eq_main h t1 t2 v1 v2 n h1 h2 hok hn
  by_cases hp : TreeEq t1 t2
  · simp [ht hp, hp]
  · simp [hf hp, hp]

example : Reps exHeap (.ptr 1) (.con 1 (.cons (.int 3) (.cons (.str [65, 66]) .nil))) ∧
    Tree.Ok (.con 1 (.cons (.int 3) (.cons (.str [65, 66]) .nil))) :=
  ⟨by simp [Reps, RepsL, exHeap], by simp [Tree.Ok, Tree.All, Trees.All]⟩
example : eqAux 5 exHeap (.ptr 1) (.ptr 2) = some .tt ∧ eqAux 5 exHeap (.ptr 5) (.ptr 6) = some .ff ∧
    eqAux 5 exHeap (.ptr 4) (.ptr 7) = some .tt ∧ eqAux 5 exHeap (.ptr 0) (.ptr 1) = some .ff := by decide

/-- C13: the equality decided is an equivalence relation on values without NaN. -/
theorem C13_equivalence (a b c : Tree) (ha : a.Ok) :
    TreeEq a a ∧ (TreeEq a b → TreeEq b a) ∧ (TreeEq a b → TreeEq b c → TreeEq a c) :=
  ⟨treeEq_refl a ha, treeEq_symm, treeEq_trans⟩

example : Tree.Ok (.con 0 (.cons (.real 0) .nil)) := by simp [Tree.Ok, Tree.All, Trees.All, isNaN]

/-- C13: equality agrees with plain identity of trees when no reals are involved, so that equal values cannot
be told apart by any pure function. -/
theorem C13_equal_is_identical (a b : Tree) (ha : a.NoReal) : TreeEq a b ↔ a = b := by
  constructor
  · intro h
    have : ∀ {t u : Tree}, TreeEq t u → t.All (fun _ => False) (fun _ => True) → t = u := by
      intro t u h hn
      exact TreeEq.rec (motive_1 := fun t u _ => t.All (fun _ => False) (fun _ => True) → t = u)
        (motive_2 := fun t u _ => t.All (fun _ => False) (fun _ => True) → t = u)
        (fun _ _ => rfl) (fun k _ _ _ ih hn => by rw [ih (by simpa only [Tree.All] using hn)]) (fun _ _ => rfl)
        (fun _ hn => by simp only [Tree.All] at hn) (fun _ _ => rfl) (fun _ => rfl)
        (fun _ _ ih1 ih2 hn => by
          simp only [Trees.All] at hn
          rw [ih1 hn.1, ih2 hn.2]) h hn
    exact this h ha
  · rintro rfl
    have : ∀ t : Tree, t.All (fun _ => False) (fun _ => True) → TreeEq t t := by
      intro t
      exact Tree.rec (motive_1 := fun t => t.All (fun _ => False) (fun _ => True) → TreeEq t t)
        (motive_2 := fun t => t.All (fun _ => False) (fun _ => True) → TreesEq t t)
        (fun n _ => .int n) (fun k _ ih hn => .con k (ih (by simpa only [Tree.All] using hn))) (fun s _ => .str s)
        (fun _ hn => by simp only [Tree.All] at hn) (fun a _ => .ident a) (fun _ => .nil)
        (fun _ _ ih1 ih2 hn => by
          simp only [Trees.All] at hn
          exact .cons (ih1 hn.1) (ih2 hn.2)) t
    exact this a ha

/-- C13, FINDING: with NaN, the answer depends on sharing: a NaN is equal to itself but not to another copy
of the same NaN. -/
theorem C13_nan_violation : ∃ (h : Heap) (v1 v2 : Val) (t : Tree), Reps h v1 t ∧ Reps h v2 t ∧
    eqAux 1 h v1 v1 = some .tt ∧ eqAux 1 h v1 v2 = some .ff :=
  ⟨exHeap, .ptr 8, .ptr 9, .real (2047 * 2 ^ 52 + 1), by simp [Reps, exHeap], by simp [Reps, exHeap], by decide, by decide⟩

/-- C13, FINDING: two copies of the same string of length in [2^31, 2^33) are unequal, since the length is kept in a
C int. -/
theorem C13_long_string_violation (h : Heap) (a b : Nat) (s : Bytes) (ha : h a = some (.str s)) (hb : h b = some (.str s))
    (hab : a ≠ b) (hl : 2 ^ 31 ≤ s.length) (hl2 : s.length < 2 ^ 33) (n : Nat) :
    eqAux (n + 1) h (.ptr a) (.ptr b) = some .ff := by
  rw [eqAux_ptr n h a b _ _ ha hb (by simpa using hab),
    show eqObj (eqAux n h) (.str s) (.str s) = some (if strEq s s then .tt else .ff) from rfl]
  have : strEq s s = false := by
    unfold strEq lenInt Mosml.Strings.intVal
    dsimp only
    apply if_pos
    by_cases hm : s.length % 2 ^ 32 < 2 ^ 31
    · rw [if_pos hm]; omega
    · rw [if_neg hm]; omega
  rw [this]; rfl

example : ∃ (h : Heap) (s : Bytes), h 0 = some (.str s) ∧ h 1 = some (.str s) ∧ s.length = 2 ^ 31 := by
  obtain ⟨n, hn⟩ : ∃ n : Nat, n = 2 ^ 31 := ⟨_, rfl⟩
  exact ⟨fun _ => some (.str (List.replicate n 0)), List.replicate n 0, rfl, rfl, by rw [List.length_replicate, hn]⟩

/-! ### C14 -/

/-- C14: equal values without reals have equal hashes, for any count and limit and in any state of the
machine's heap. -/
theorem C14_equal_hash (h : Heap) (v1 v2 : Val) (t1 t2 : Tree) (h1 : Reps h v1 t1) (h2 : Reps h v2 t2)
    (hn : t1.NoReal) (he : TreeEq t1 t2) (fuel : Nat) (count limit : Int) :
    hashParam fuel h count limit v1 = hashParam fuel h count limit v2 := by
  unfold hashParam
  rw [hash_shape h h t1 t2 v1 v2 (shape_of_treeEq he hn) h1 h2]

/-- C14: the hash of a value does not change when the garbage collector moves it (also reals and references
inside). -/
theorem C14_hash_stable (h h' : Heap) (v v' : Val) (t t' : Tree) (h1 : Reps h v t) (h2 : Reps h' v' t')
    (hs : Shape t t') (fuel : Nat) (count limit : Int) :
    hashParam fuel h count limit v = hashParam fuel h' count limit v' := by
  unfold hashParam
  rw [hash_shape h h' t t' v v' hs h1 h2]

example : Shape (.con 0 (.cons (.ident 1) (.cons (.real 7) .nil))) (.con 0 (.cons (.ident 2) (.cons (.real 7) .nil))) :=
  .con 0 (.cons (.ident 1 2) (.cons (.real 7) .nil))

example : polyhash exHeap (.ptr 1) = polyhash exHeap (.ptr 2) ∧ polyhash exHeap (.ptr 1) = some 109025541 ∧
    polyhash exHeap (.ptr 0) ≠ polyhash exHeap (.ptr 1) := by decide

/-- C14: hashing terminates on every heap, cyclic or not, looking at no more than `limit` heap blocks, and
yields a number below 2^30. -/
theorem C14_bounded (h : Heap) (v : Val) (count limit : Int) (fuel : Nat) (hf : limit < fuel) (hpos : 0 < fuel) :
    ∃ r, hashParam fuel h count limit v = some r ∧ r < 2 ^ 30 ∧
      ∃ L : List Nat, (L.length : Int) ≤ max limit 0 ∧
        ∀ h' : Heap, (∀ a ∈ L, h' a = h a) → hashParam fuel h' count limit v = some r := by
  obtain ⟨n, rfl⟩ : ∃ n, fuel = n + 1 := ⟨fuel - 1, by omega⟩
  obtain ⟨st', e, -, L, hL, hh⟩ := hash_good h n v { accu := 0, limit := limit, count := count } (by simp only; omega)
  refine ⟨st'.accu % 2 ^ 30, ?_, Nat.mod_lt _ (by omega), L, by simp only at hL; omega, ?_⟩
  · unfold hashParam; dsimp only at e; rw [e]; rfl
  · intro h' hag
    unfold hashParam
    have := hh h' hag
    dsimp only at this
    rw [this]; rfl

example : (500 : Int) < (501 : Nat) ∧ 0 < 501 := by decide
/-- a cyclic heap (a block containing itself) is hashed too -/
example : (hashParam 501 (fun _ => some (.block 0 [.ptr 0, .ptr 0])) 50 500 (.ptr 0)).isSome = true := by decide

/-- C14: the answer does not depend on the fuel that bounds the recursion in the model. -/
theorem C14_fuel_irrelevant (h : Heap) (v : Val) (count limit : Int) (fuel k : Nat) (r : Nat)
    (he : hashParam fuel h count limit v = some r) : hashParam (fuel + k) h count limit v = some r := by
  induction k with
  | zero => exact he
  | succ k ih =>
    unfold hashParam at *
    rw [Option.map_eq_some_iff] at ih ⊢
    obtain ⟨st, e, hr⟩ := ih
    exact ⟨st, hash_mono h _ v _ st e, hr⟩

/-- C14, FINDING: equal reals can hash differently (0.0 and ~0.0), which is why reals are excluded. -/
theorem C14_real_violation : ∃ (h : Heap) (v1 v2 : Val) (t1 t2 : Tree), Reps h v1 t1 ∧ Reps h v2 t2 ∧ TreeEq t1 t2 ∧
    polyhash h v1 ≠ polyhash h v2 :=
  ⟨exHeap, .ptr 4, .ptr 7, .real 0, .real (2 ^ 63), by simp [Reps, exHeap], by simp [Reps, exHeap], .real (by decide),
    by decide⟩

end Mosml.Equal
