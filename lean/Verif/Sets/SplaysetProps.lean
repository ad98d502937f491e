import Verif.Sets.SplaysetLemmas

/-!
C70: Splayset values are immutable sets, although lookups reorganize them in place.
-/
namespace Mosml.Sets.Splayset
open Mosml.Maps (Lawful)
open Mosml.Maps.Splaymap (Splay splay join flat join_flat forall₂_get forall₂_snoc)
open Mosml.Maps.Splaymap.Splay
variable {K : Type}

/-- one step of a program; sets are named by the order in which they were made -/
inductive Op (K : Type) where
  | empty
  | singleton (x : K)
  | add (i : Nat) (x : K)
  | addList (i : Nat) (xs : List K)
  | delete (i : Nat) (x : K)
  | union (i j : Nat)
  | intersection (i j : Nat)
  | difference (i j : Nat)
  | peek (i : Nat) (x : K)
  | numItems (i : Nat)
  | isEmpty (i : Nat)
  | isSubset (i j : Nat)
  | equal (i j : Nat)
  | listItems (i : Nat)

/-- what a step yields to the user -/
inductive Out (K : Type) where
  | unit
  | elem (x : Option K)
  | num (n : Int)
  | bool (b : Bool)
  | list (l : List K)
  deriving DecidableEq

/-- the memory: the set objects with their references, and the object that each set of the program is -/
structure Mem (K : Type) where
  heap : List (OSet K)
  vars : List Nat

def Mem.get (σ : Mem K) (i : Nat) : Option (Nat × OSet K) :=
  match σ.vars[i]? with
  | some v => match σ.heap[v]? with
    | some s => some (v, s)
    | none => none
  | none => none

/-- a new object, and a name for it -/
def Mem.new (σ : Mem K) (s : OSet K) : Mem K := ⟨σ.heap ++ [s], σ.vars ++ [σ.heap.length]⟩
/-- a new name for an object -/
def Mem.share (σ : Mem K) (v : Nat) : Mem K := ⟨σ.heap, σ.vars ++ [v]⟩
/-- assignment to the reference in an object -/
def Mem.set (σ : Mem K) (v : Nat) (s : OSet K) : Mem K := ⟨σ.heap.set v s, σ.vars⟩

def Mem.made (σ : Mem K) (v v' : Nat) : Made K → Mem K
  | .first => σ.share v
  | .second => σ.share v'
  | .fresh s => σ.new s

/-- one step on the memory; a step that names a set not yet made does nothing -/
def exec (cmp : K → K → Ordering) (σ : Mem K) : Op K → Mem K × Out K
  | .empty => (σ.new Splayset.empty, .unit)
  | .singleton x => (σ.new (Splayset.singleton x), .unit)
  | .add i x => match σ.get i with
    | some (_, s) => (σ.new (Splayset.add cmp s x), .unit)
    | none => (σ, .unit)
  | .addList i xs => match σ.get i with
    | some (_, s) => (σ.new (Splayset.addList cmp s xs), .unit)
    | none => (σ, .unit)
  | .delete i x => match σ.get i with
    | some (v, s) => match Splayset.delete cmp s x with
      | (some s', s) => ((σ.set v s).new s', .bool true)
      | (none, s) => (σ.set v s, .bool false)
    | none => (σ, .unit)
  | .union i j => match σ.get i, σ.get j with
    | some (v, s), some (v', s') => (σ.made v v' (Splayset.union cmp s s'), .unit)
    | _, _ => (σ, .unit)
  | .intersection i j => match σ.get i, σ.get j with
    | some (v, s), some (v', s') => (σ.made v v' (Splayset.intersection cmp s s'), .unit)
    | _, _ => (σ, .unit)
  | .difference i j => match σ.get i, σ.get j with
    | some (v, s), some (v', s') => (σ.made v v' (Splayset.difference cmp s s'), .unit)
    | _, _ => (σ, .unit)
  | .peek i x => match σ.get i with
    | some (v, s) => let r := Splayset.peek cmp s x; (σ.set v r.2, .elem r.1)
    | none => (σ, .unit)
  | .numItems i => match σ.get i with
    | some (_, s) => (σ, .num (Splayset.numItems s))
    | none => (σ, .unit)
  | .isEmpty i => match σ.get i with
    | some (_, s) => (σ, .bool (Splayset.isEmpty s))
    | none => (σ, .unit)
  | .isSubset i j => match σ.get i, σ.get j with
    | some (_, s), some (_, s') => (σ, .bool (Splayset.isSubset cmp s s'))
    | _, _ => (σ, .unit)
  | .equal i j => match σ.get i, σ.get j with
    | some (_, s), some (_, s') => (σ, .bool (Splayset.equal cmp s s'))
    | _, _ => (σ, .unit)
  | .listItems i => match σ.get i with
    | some (_, s) => (σ, .list (Splayset.listItems s))
    | none => (σ, .unit)

/-- The sets of the program after a step: sets are only ever added.  Of elements that compare EQUAL, `add` keeps the new one, `union` that of
the second set, `intersection` that of the first. -/
def next (cmp : K → K → Ordering) (w : List (FSet K)) : Op K → List (FSet K)
  | .empty => w ++ [FSet.empty]
  | .singleton x => w ++ [FSet.put cmp FSet.empty x]
  | .add i x => match w[i]? with
    | some m => w ++ [FSet.put cmp m x]
    | none => w
  | .addList i xs => match w[i]? with
    | some m => w ++ [xs.foldl (FSet.put cmp) m]
    | none => w
  | .delete i x => match w[i]? with
    | some m => if (m x).isSome then w ++ [FSet.remove cmp m x] else w
    | none => w
  | .union i j => match w[i]?, w[j]? with
    | some m, some n => w ++ [FSet.union n m]
    | _, _ => w
  | .intersection i j => match w[i]?, w[j]? with
    | some m, some n => w ++ [FSet.inter m n]
    | _, _ => w
  | .difference i j => match w[i]?, w[j]? with
    | some m, some n => w ++ [FSet.diff m n]
    | _, _ => w
  | _ => w

/-- the answer of a step is right for these sets -/
def Answers (cmp : K → K → Ordering) (w : List (FSet K)) (op : Op K) (o : Out K) : Prop :=
  match op with
  | .delete i x => ∀ m, w[i]? = some m → o = .bool (m x).isSome
  | .peek i x => ∀ m, w[i]? = some m → o = .elem (m x)
  | .numItems i => ∀ m, w[i]? = some m → ∃ l, Lists cmp l m ∧ o = .num l.length
  | .isEmpty i => ∀ m, w[i]? = some m → ∃ b, o = .bool b ∧ (b = true ↔ ∀ x, ¬ m.Mem x)
  | .isSubset i j => ∀ m n, w[i]? = some m → w[j]? = some n → ∃ b, o = .bool b ∧ (b = true ↔ m.Subset n)
  | .equal i j => ∀ m n, w[i]? = some m → w[j]? = some n → ∃ b, o = .bool b ∧ (b = true ↔ ∀ x, m.Mem x ↔ n.Mem x)
  | .listItems i => ∀ m, w[i]? = some m → ∃ l, Lists cmp l m ∧ o = .list l
  | _ => o = .unit

/-- all answers of a program are right -/
def AllRight (cmp : K → K → Ordering) : List (FSet K) → List (Op K) → List (Out K) → Prop
  | _, [], os => os = []
  | w, op :: ops, os => match os with
    | o :: os => Answers cmp w op o ∧ AllRight cmp (next cmp w op) ops os
    | [] => False

/-- the answers of a program -/
def outputs (cmp : K → K → Ordering) : Mem K → List (Op K) → List (Out K)
  | _, [] => []
  | σ, op :: ops => let r := exec cmp σ op; r.2 :: outputs cmp r.1 ops

/-- an object stands for a set -/
def Ok (cmp : K → K → Ordering) (s : OSet K) (m : FSet K) : Prop := Lists cmp (flat s.root) m ∧ s.nobj = (flat s.root).length

def World (cmp : K → K → Ordering) (σ : Mem K) (w : List (FSet K)) : Prop :=
  List.Forall₂ (fun v m => ∃ s, σ.heap[v]? = some s ∧ Ok cmp s m) σ.vars w

section
variable {cmp : K → K → Ordering}

theorem forall₂_imp {α β : Type} {R S : α → β → Prop} (k : ∀ a b, R a b → S a b) {l : List α} {m : List β} (hl : List.Forall₂ R l m) :
    List.Forall₂ S l m := by
  induction hl with
  | nil => exact .nil
  | cons a _ ih => exact .cons (k _ _ a) ih

theorem World.get {σ : Mem K} {w : List (FSet K)} (k : World cmp σ w) (i : Nat) :
    (σ.get i = none ∧ w[i]? = none) ∨
      ∃ v s m, σ.get i = some (v, s) ∧ w[i]? = some m ∧ Ok cmp s m ∧ σ.heap[v]? = some s := by
  rcases forall₂_get k i with ⟨e1, e2⟩ | ⟨v, m, e1, e2, s, e3, e4⟩
  · exact .inl ⟨by simp [Mem.get, e1], e2⟩
  · exact .inr ⟨v, s, m, by simp [Mem.get, e1, e3], e2, e4, e3⟩

theorem World.new {σ : Mem K} {w : List (FSet K)} (k : World cmp σ w) {s : OSet K} {m : FSet K} (o : Ok cmp s m) :
    World cmp (σ.new s) (w ++ [m]) := by
  refine forall₂_snoc (forall₂_imp ?_ k) _ _ ⟨s, by simp [Mem.new], o⟩
  rintro v n ⟨t, h1, h2⟩
  refine ⟨t, ?_, h2⟩
  have := (List.getElem?_eq_some_iff.1 h1).1
  simp only [Mem.new]
  rw [List.getElem?_append_left this]; exact h1

theorem World.share {σ : Mem K} {w : List (FSet K)} (k : World cmp σ w) {v : Nat} {s : OSet K} {m : FSet K} (e : σ.heap[v]? = some s)
    (o : Ok cmp s m) : World cmp (σ.share v) (w ++ [m]) := forall₂_snoc k _ _ ⟨s, e, o⟩

theorem World.set {σ : Mem K} {w : List (FSet K)} (k : World cmp σ w) {v : Nat} {s s' : OSet K} (e : σ.heap[v]? = some s)
    (o : flat s'.root = flat s.root ∧ s'.nobj = s.nobj) : World cmp (σ.set v s') w := by
  refine forall₂_imp ?_ k
  rintro u n ⟨t, h1, h2⟩
  simp only [Mem.set]
  have hv := (List.getElem?_eq_some_iff.1 e).1
  by_cases c : v = u
  · subst c
    rw [e] at h1; cases h1
    exact ⟨s', by simp [hv], by unfold Ok; rw [o.1, o.2]; exact h2⟩
  · exact ⟨t, by rw [List.getElem?_set_ne c]; exact h1, h2⟩

theorem Ok.nil {s : OSet K} {m : FSet K} (k : Ok cmp s m) (e : s.nobj = 0) : m = FSet.empty := by
  have : flat s.root = [] := by
    have := k.2
    rw [e] at this
    exact List.length_eq_zero_iff.1 (by omega)
  funext x
  have := k.1.absent x
  simp only [FSet.empty]
  rw [this]; simp [*]

variable (h : Lawful cmp)
include h

theorem add_ok {s : OSet K} {m : FSet K} (k : Ok cmp s m) (x : K) : Ok cmp (add cmp s x) (FSet.put cmp m x) := by
  obtain ⟨h1, h2⟩ := insert_ok h x s.nobj s.root k.1.1 k.2
  refine ⟨?_, h2⟩
  show Lists cmp (flat (insert cmp x s.nobj s.root).2) _
  rw [h1]; exact k.1.put h x

theorem addList_ok (xs : List K) : ∀ {s : OSet K} {m : FSet K}, Ok cmp s m → Ok cmp (addList cmp s xs) (xs.foldl (FSet.put cmp) m) := by
  induction xs with
  | nil => intro s m k; exact k
  | cons x xs ih => intro s m k; exact ih (add_ok h k x)

theorem peek_ok {s : OSet K} {m : FSet K} (k : Ok cmp s m) (x : K) :
    (peek cmp s x).1 = m x ∧ flat (peek cmp s x).2.root = flat s.root ∧ (peek cmp s x).2.nobj = s.nobj := by
  obtain ⟨p1, p2, p3, p4⟩ := split_ok h x s.root k.1.1
  rw [k.1.find h] at p1 p2
  have hm := k.1.find h x
  rcases splay_find h x s.root k.1.1 with ⟨h1, h2⟩ | ⟨o, a, l, r, h1, h2, h3, h4, h5, h6⟩
  · rw [← hm]
    simp only [peek, h2]; simp [h1, flat, lfind]
  · simp only [split, h1] at p1
    cases o <;> simp only at p1 <;> simp only [peek, h1] <;> exact ⟨p1, by simp only [flat]; exact h2.symm, trivial⟩

theorem delete_ok {s : OSet K} {m : FSet K} (k : Ok cmp s m) (x : K) :
    (flat (delete cmp s x).2.root = flat s.root ∧ (delete cmp s x).2.nobj = s.nobj) ∧
    ((m x = none ∧ (delete cmp s x).1 = none) ∨
      ∃ s', (m x).isSome ∧ (delete cmp s x).1 = some s' ∧ Ok cmp s' (FSet.remove cmp m x)) := by
  have hm := k.1.find h x
  rcases splay_find h x s.root k.1.1 with ⟨h1, h2⟩ | ⟨o, a, l, r, h1, h2, h3, h4, h5, h6⟩
  · rw [← hm]
    simp only [delete, h2]; simp [h1, flat, lfind]
  · obtain ⟨p1, -, -, -⟩ := split_ok h x s.root k.1.1
    simp only [split, h1] at p1
    rw [k.1.find h] at p1
    have ks := k.1.1
    rw [h2] at ks
    obtain ⟨-, -, o3, o4, -⟩ := asc_mid.mp ks
    cases o with
    | eq =>
      simp only at p1
      simp only [delete, h1]
      refine ⟨⟨trivial, trivial⟩, .inr ⟨_, by rw [← p1]; rfl, rfl, ?_, ?_⟩⟩
      · have := k.1.remove h x
        rw [h2, lrem_eq h (h.eq_symm h3) o3] at this
        simp only [join_flat]; exact this
      · have := k.2
        rw [h2] at this
        simp only [join_flat, List.length_append, List.length_cons] at this ⊢
        push_cast at this ⊢; omega
    | lt =>
      simp only at p1
      simp only [delete, h1]
      exact ⟨⟨by simp only [flat]; exact h2.symm, trivial⟩, .inl ⟨p1.symm, trivial⟩⟩
    | gt =>
      simp only at p1
      simp only [delete, h1]
      exact ⟨⟨by simp only [flat]; exact h2.symm, trivial⟩, .inl ⟨p1.symm, trivial⟩⟩

theorem union_ok {σ : Mem K} {w : List (FSet K)} (k : World cmp σ w) {v v' : Nat} {s s' : OSet K} {m n : FSet K}
    (e : σ.heap[v]? = some s) (e' : σ.heap[v']? = some s') (o : Ok cmp s m) (o' : Ok cmp s' n) :
    World cmp (σ.made v v' (union cmp s s')) (w ++ [FSet.union n m]) := by
  unfold union
  split
  · rename_i c
    have : FSet.union n m = n := by
      rw [o.nil c]; funext x; simp only [FSet.union, FSet.empty]; cases n x <;> rfl
    rw [this]; exact k.share e' o'
  · split
    · rename_i c
      have : FSet.union n m = m := by rw [o'.nil c]; rfl
      rw [this]; exact k.share e o
    · obtain ⟨u1, u2, u3⟩ := uni_ok h s'.root s.root o.1.1 o'.1.1
      exact k.new ⟨Lists.of_union h o'.1 o.1 u1 u3, u2⟩

theorem intersection_ok {σ : Mem K} {w : List (FSet K)} (k : World cmp σ w) {v v' : Nat} {s s' : OSet K} {m n : FSet K}
    (e : σ.heap[v]? = some s) (e' : σ.heap[v']? = some s') (o : Ok cmp s m) (o' : Ok cmp s' n) :
    World cmp (σ.made v v' (intersection cmp s s')) (w ++ [FSet.inter m n]) := by
  unfold intersection
  split
  · rename_i c
    have : FSet.inter m n = m := by
      rw [o.nil c]; funext x; simp only [FSet.inter, FSet.empty]; cases n x <;> rfl
    rw [this]; exact k.share e o
  · split
    · rename_i c
      have : FSet.inter m n = n := by rw [o'.nil c]; rfl
      rw [this]; exact k.share e' o'
    · obtain ⟨u1, u2, u3⟩ := inter_ok h s'.root s.root o.1.1 o'.1.1
      exact k.new ⟨Lists.of_inter h o.1 o'.1 u1 u3, u2⟩

theorem difference_ok {σ : Mem K} {w : List (FSet K)} (k : World cmp σ w) {v v' : Nat} {s s' : OSet K} {m n : FSet K}
    (e : σ.heap[v]? = some s) (o : Ok cmp s m) (o' : Ok cmp s' n) :
    World cmp (σ.made v v' (difference cmp s s')) (w ++ [FSet.diff m n]) := by
  unfold difference
  split
  · rename_i c
    have : FSet.diff m n = m := by
      rw [o.nil c]; funext x; simp only [FSet.diff, FSet.empty]; cases n x <;> rfl
    rw [this]; exact k.share e o
  · split
    · rename_i c
      have : FSet.diff m n = m := by rw [o'.nil c]; rfl
      rw [this]; exact k.share e o
    · obtain ⟨u1, u2, u3⟩ := diff_ok h s'.root s.root o.1.1 o'.1.1
      exact k.new ⟨Lists.of_diff h o.1 o'.1 u1 u3, u2⟩

theorem isSubset_ok {s s' : OSet K} {m n : FSet K} (o : Ok cmp s m) (o' : Ok cmp s' n) : isSubset cmp s s' = true ↔ m.Subset n := by
  have z1 := o.2
  have z2 := o'.2
  rw [Lists.subset_iff h o.1 o'.1]
  simp only [isSubset, Bool.and_eq_true, decide_eq_true_eq, isIn_ok h _ o'.1.1]
  constructor
  · exact fun k => k.2
  · intro k
    have l1 := subset_length h o.1.1 o'.1.1 k
    exact ⟨by omega, k⟩

theorem equal_ok {s s' : OSet K} {m n : FSet K} (o : Ok cmp s m) (o' : Ok cmp s' n) : equal cmp s s' = true ↔ ∀ x, m.Mem x ↔ n.Mem x := by
  have z1 := o.2
  have z2 := o'.2
  have both : (∀ x, m.Mem x ↔ n.Mem x) ↔ m.Subset n ∧ n.Subset m :=
    ⟨fun k => ⟨fun x => (k x).1, fun x => (k x).2⟩, fun k x => ⟨k.1 x, k.2 x⟩⟩
  rw [both, Lists.subset_iff h o.1 o'.1, Lists.subset_iff h o'.1 o.1]
  simp only [equal, Bool.and_eq_true, decide_eq_true_eq, isIn_ok h _ o'.1.1]
  constructor
  · rintro ⟨k1, k2⟩
    exact ⟨k2, subset_full h o.1.1 o'.1.1 k2 (by omega)⟩
  · rintro ⟨k1, k2⟩
    have l1 := subset_length h o.1.1 o'.1.1 k1
    have l2 := subset_length h o'.1.1 o.1.1 k2
    exact ⟨by omega, k1⟩

omit h in
theorem isEmpty_ok (h : Lawful cmp) {s : OSet K} {m : FSet K} (o : Ok cmp s m) : isEmpty s = true ↔ ∀ x, ¬ m.Mem x := by
  simp only [isEmpty, beq_iff_eq]
  constructor
  · intro e x
    rw [o.nil e]; simp [FSet.Mem, FSet.empty]
  · intro k
    have : flat s.root = [] := by
      cases e : flat s.root with
      | nil => rfl
      | cons x l => exact absurd (by rw [FSet.Mem, o.1.self h (x := x) (by simp [e])]; rfl) (k x)
    rw [o.2, this]; rfl

theorem exec_ok {σ : Mem K} {w : List (FSet K)} (k : World cmp σ w) (op : Op K) :
    World cmp (exec cmp σ op).1 (next cmp w op) ∧ Answers cmp w op (exec cmp σ op).2 := by
  cases op with
  | empty => exact ⟨k.new ⟨Lists.empty, rfl⟩, rfl⟩
  | singleton x => exact ⟨k.new ⟨(Lists.empty (cmp := cmp)).put h x, rfl⟩, rfl⟩
  | add i x =>
    rcases k.get i with ⟨e1, e2⟩ | ⟨v, s, m, e1, e2, e3, e4⟩
    · simp only [exec, next, Answers, e1, e2]; exact ⟨k, trivial⟩
    · simp only [exec, next, Answers, e1, e2]; exact ⟨k.new (add_ok h e3 x), trivial⟩
  | addList i xs =>
    rcases k.get i with ⟨e1, e2⟩ | ⟨v, s, m, e1, e2, e3, e4⟩
    · simp only [exec, next, Answers, e1, e2]; exact ⟨k, trivial⟩
    · simp only [exec, next, Answers, e1, e2]; exact ⟨k.new (addList_ok h xs e3), trivial⟩
  | delete i x =>
    rcases k.get i with ⟨e1, e2⟩ | ⟨v, s, m, e1, e2, e3, e4⟩
    · simp only [exec, next, Answers, e1, e2]; exact ⟨k, by simp⟩
    · obtain ⟨q1, q2⟩ := delete_ok h e3 x
      simp only [exec, next, Answers, e1, e2, Option.some.injEq, forall_eq']
      generalize delete cmp s x = q at *
      obtain ⟨res, s1⟩ := q
      rcases q2 with ⟨q2, q3⟩ | ⟨s', q2, q3, q4⟩
      · simp only at q3; subst q3
        simp only [q2]
        exact ⟨k.set e4 q1, rfl⟩
      · simp only at q3; subst q3
        simp only [q2, if_true]
        exact ⟨(k.set e4 q1).new q4, trivial⟩
  | union i j =>
    rcases k.get i with ⟨e1, e2⟩ | ⟨v, s, m, e1, e2, e3, e4⟩
    · simp only [exec, next, Answers, e1, e2]; exact ⟨k, trivial⟩
    · rcases k.get j with ⟨f1, f2⟩ | ⟨v', s', n, f1, f2, f3, f4⟩
      · simp only [exec, next, Answers, e1, e2, f1, f2]; exact ⟨k, trivial⟩
      · simp only [exec, next, Answers, e1, e2, f1, f2]; exact ⟨union_ok h k e4 f4 e3 f3, trivial⟩
  | intersection i j =>
    rcases k.get i with ⟨e1, e2⟩ | ⟨v, s, m, e1, e2, e3, e4⟩
    · simp only [exec, next, Answers, e1, e2]; exact ⟨k, trivial⟩
    · rcases k.get j with ⟨f1, f2⟩ | ⟨v', s', n, f1, f2, f3, f4⟩
      · simp only [exec, next, Answers, e1, e2, f1, f2]; exact ⟨k, trivial⟩
      · simp only [exec, next, Answers, e1, e2, f1, f2]; exact ⟨intersection_ok h k e4 f4 e3 f3, trivial⟩
  | difference i j =>
    rcases k.get i with ⟨e1, e2⟩ | ⟨v, s, m, e1, e2, e3, e4⟩
    · simp only [exec, next, Answers, e1, e2]; exact ⟨k, trivial⟩
    · rcases k.get j with ⟨f1, f2⟩ | ⟨v', s', n, f1, f2, f3, f4⟩
      · simp only [exec, next, Answers, e1, e2, f1, f2]; exact ⟨k, trivial⟩
      · simp only [exec, next, Answers, e1, e2, f1, f2]; exact ⟨difference_ok h k e4 e3 f3, trivial⟩
  | peek i x =>
    rcases k.get i with ⟨e1, e2⟩ | ⟨v, s, m, e1, e2, e3, e4⟩
    · simp only [exec, next, Answers, e1, e2]; exact ⟨k, by simp⟩
    · obtain ⟨q1, q2⟩ := peek_ok h e3 x
      simp only [exec, next, Answers, e1, e2, Option.some.injEq, forall_eq']
      exact ⟨k.set e4 q2, by rw [q1]⟩
  | numItems i =>
    rcases k.get i with ⟨e1, e2⟩ | ⟨v, s, m, e1, e2, e3, e4⟩
    · simp only [exec, next, Answers, e1, e2]; exact ⟨k, by simp⟩
    · simp only [exec, next, Answers, e1, e2, Option.some.injEq, forall_eq']
      exact ⟨k, _, e3.1, by rw [numItems, e3.2]⟩
  | isEmpty i =>
    rcases k.get i with ⟨e1, e2⟩ | ⟨v, s, m, e1, e2, e3, e4⟩
    · simp only [exec, next, Answers, e1, e2]; exact ⟨k, by simp⟩
    · simp only [exec, next, Answers, e1, e2, Option.some.injEq, forall_eq']
      exact ⟨k, _, rfl, isEmpty_ok h e3⟩
  | isSubset i j =>
    rcases k.get i with ⟨e1, e2⟩ | ⟨v, s, m, e1, e2, e3, e4⟩
    · simp only [exec, next, Answers, e1, e2]; exact ⟨k, by simp⟩
    · rcases k.get j with ⟨f1, f2⟩ | ⟨v', s', n, f1, f2, f3, f4⟩
      · simp only [exec, next, Answers, e1, e2, f1, f2]; exact ⟨k, by simp⟩
      · simp only [exec, next, Answers, e1, e2, f1, f2, Option.some.injEq]
        exact ⟨k, by rintro m' n' rfl rfl; exact ⟨_, rfl, isSubset_ok h e3 f3⟩⟩
  | equal i j =>
    rcases k.get i with ⟨e1, e2⟩ | ⟨v, s, m, e1, e2, e3, e4⟩
    · simp only [exec, next, Answers, e1, e2]; exact ⟨k, by simp⟩
    · rcases k.get j with ⟨f1, f2⟩ | ⟨v', s', n, f1, f2, f3, f4⟩
      · simp only [exec, next, Answers, e1, e2, f1, f2]; exact ⟨k, by simp⟩
      · simp only [exec, next, Answers, e1, e2, f1, f2, Option.some.injEq]
        exact ⟨k, by rintro m' n' rfl rfl; exact ⟨_, rfl, equal_ok h e3 f3⟩⟩
  | listItems i =>
    rcases k.get i with ⟨e1, e2⟩ | ⟨v, s, m, e1, e2, e3, e4⟩
    · simp only [exec, next, Answers, e1, e2]; exact ⟨k, by simp⟩
    · simp only [exec, next, Answers, e1, e2, Option.some.injEq, forall_eq']
      exact ⟨k, _, e3.1, by rw [listItems_eq]⟩

theorem outputs_ok (ops : List (Op K)) : ∀ (σ : Mem K) (w : List (FSet K)), World cmp σ w → AllRight cmp w ops (outputs cmp σ ops) := by
  induction ops with
  | nil => intro σ w k; rfl
  | cons op ops ih =>
    intro σ w k
    obtain ⟨h1, h2⟩ := exec_ok h k op
    exact ⟨h2, ih _ _ h1⟩

/-- C70: whatever a program does with any number of sets, every answer is right for the sets as they were made: no lookup or operation changes
a set, although lookups assign the references and sets may share them. -/
theorem C70_splayset (ops : List (Op K)) : AllRight cmp [] ops (outputs cmp ⟨[], []⟩ ops) := outputs_ok h ops _ _ .nil

end

/-- C70: the traversals go through the elements in (reverse) order. -/
theorem C70_traversals {S : Type} (t : OSet K) (s : S) (f : K → S → S) :
    app f t.root s = (listItems t).foldl (fun a x => f x a) s ∧
    revapp f t.root s = (listItems t).reverse.foldl (fun a x => f x a) s ∧
    foldl f t.root s = (listItems t).foldl (fun a x => f x a) s ∧
    foldr f t.root s = (listItems t).foldr f s := by
  rw [listItems_eq]
  generalize t.root = t
  refine ⟨?_, ?_, ?_, ?_⟩
  · induction t generalizing s with
    | SplayNil => rfl
    | SplayObj v l r ihl ihr => simp [app, flat, ihl, ihr]
  · induction t generalizing s with
    | SplayNil => rfl
    | SplayObj v l r ihl ihr =>
      simp only [revapp, flat, ihl, ihr, List.reverse_append, List.reverse_cons, List.foldl_append, List.foldl_cons, List.foldl_nil]
  · induction t generalizing s with
    | SplayNil => rfl
    | SplayObj v l r ihl ihr => simp [foldl, flat, ihl, ihr]
  · induction t generalizing s with
    | SplayNil => rfl
    | SplayObj v l r ihl ihr => simp [foldr, flat, ihl, ihr]

/-- C70: `find` returns an element that satisfies the condition, if there is one (not necessarily the least). -/
theorem C70_find (p : K → Bool) (s : OSet K) :
    match find p s.root with
    | some x => x ∈ listItems s ∧ p x = true
    | none => ∀ x ∈ listItems s, p x = false := by
  rw [listItems_eq]
  generalize s.root = t
  induction t with
  | SplayNil => simp [find, flat]
  | SplayObj v l r ihl ihr =>
    simp only [find, flat]
    cases e : p v with
    | true => simp [e]
    | false =>
      simp only [Bool.false_eq_true, if_false]
      generalize find p l = fl at ihl ⊢
      cases fl with
      | some x =>
        simp only at ihl ⊢
        exact ⟨by simp [ihl.1], ihl.2⟩
      | none =>
        simp only at ihl ⊢
        generalize find p r = fr at ihr ⊢
        cases fr with
        | some x =>
          simp only at ihr ⊢
          exact ⟨by simp [ihr.1], ihr.2⟩
        | none =>
          simp only at ihr ⊢
          intro x hx
          rcases List.mem_append.1 hx with hx | hx
          · exact ihl x hx
          · rcases List.mem_cons.1 hx with rfl | hx
            · exact e
            · exact ihr x hx

/-- a program with all operations, under a comparison for which 1 and 11 are the same; set 3 is set 1 itself -/
example : (outputs (fun a b : Int => Ord.compare (a % 10) (b % 10)) ⟨[], []⟩
      [.empty, .addList 0 [5, 3, 8, 1, 4], .addList 0 [11, 9, 25], .union 0 1, .peek 3 14, .peek 1 31, .union 1 2, .listItems 4,
       .intersection 1 2, .listItems 5, .difference 1 2, .listItems 6, .delete 3 24, .listItems 7, .listItems 3, .delete 3 2,
       .isSubset 6 1, .equal 1 3, .numItems 4]) =
    [.unit, .unit, .unit, .unit, .elem (some 4), .elem (some 1), .unit, .list [11, 3, 4, 25, 8, 9],
     .unit, .list [1, 5], .unit, .list [3, 4, 8], .bool true, .list [1, 3, 5, 8], .list [1, 3, 4, 5, 8], .bool false,
     .bool true, .bool true, .num 6] := by decide +kernel

example : Lawful (fun a b : Int => Ord.compare (a % 10) (b % 10)) := Mosml.Maps.mod_lawful 10

end Mosml.Sets.Splayset
