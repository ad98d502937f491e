import Verif.Emit.Link
import Verif.Equal.Props

/-!
# The literal table of the emitter

Constants of a phrase are collected in a hash table (Reloc.sml:20-27), whose lookup
compares hash codes and then uses polymorphic equality (Hasht.sml:115-140).  Here that
comparison is built from the models of the hash function (src/runtime/hash.c) and of
equality (src/runtime/mosml.c) applied to the compiler's representation of constants.
-/

namespace Mosml.Emit
open Mosml.Equal (Tree Trees TreeEq TreesEq HSt combine combineSmall combineBytes combineTail
  dblBytes dblEq isNaN Heap Val Reps RepsL hashAux hashParam hashFields hashStep eqAux)

/-! ## The representation of constants in the compiler -/

mutual
/-- A value of type StructConstant (Const.sml:24-40) in the heap of the compiler.
`ATOMsc` is the first constructor and has one argument; so have the constructors of
`SCon`.  `BLOCKsc` is the second; a constructor applied to a tuple holds its components
directly (Front.sml:278-288, 652-664), as does `CONtag`. -/
def encSC : SC → Tree
  | .int i => atomT 0 (.int i)
  | .word w => atomT 1 (.int w)
  | .char c => atomT 2 (.int c)
  | .real b => atomT 3 (.real b)
  | .str s => atomT 4 (.str s)
  | .block t n args =>
      .con 1 (.cons (.con 0 (.cons (.int t) (.cons (.int n) .nil))) (.cons (encArgs args) .nil))
/-- `ATOMsc (scon a)` -/
def atomT (tag : Nat) (a : Tree) : Tree := .con 0 (.cons (.con tag (.cons a .nil)) .nil)
/-- a list: `[]` is the atom 0, `::` a block with tag 1 -/
def encArgs : List SC → Tree
  | [] => .con 0 .nil
  | c :: cs => .con 1 (.cons (encSC c) (.cons (encArgs cs) .nil))
end

/-! ## Hash code and equality of trees -/

mutual
/-- hash_aux (hash.c:48-134) on the tree that a value represents. -/
def hashT : Tree → HSt → HSt
  | t, st =>
      let st := { st with limit := st.limit - 1 }
      let dec := { st with count := st.count - 1 }
      if st.count < 0 ∨ st.limit < 0 then st
      else
        match t with
        | .int k => combine dec k
        | .con tag ts => hashTs ts (combineSmall dec tag)
        | .str s => combineTail s s.length 1 (combineBytes dec (s.take 128))
        | .real b => combineBytes dec (dblBytes b)
        | .ident _ => combineSmall dec 250
/-- hash.c:122-126, from the last field to the first -/
def hashTs : Trees → HSt → HSt
  | .nil, st => st
  | .cons t ts, st => hashT t (hashTs ts st)
end

/-- `hash_param 10 100`, Hasht.sml:117 -/
def hash10 (t : Tree) : Nat := (hashT t { accu := 0, limit := 100, count := 10 }).accu % 2 ^ 30

mutual
/-- sml_equal (mosml.c:56-103) on trees -/
def eqT : Tree → Tree → Bool
  | .int m, .int n => m == n
  | .con s as, .con t bs => s == t && eqTs as bs
  | .str s, .str t => s == t
  | .real b, .real b' => dblEq b b'
  | .ident a, .ident b => a == b
  | _, _ => false
def eqTs : Trees → Trees → Bool
  | .nil, .nil => true
  | .cons a as, .cons b bs => eqT a b && eqTs as bs
  | _, _ => false
end

/-- When the literal table takes a constant for one it holds already, Hasht.sml:120. -/
def sameSC (k c : SC) : Bool :=
  hash10 (encSC k) == hash10 (encSC c) && eqT (encSC k) (encSC c)

/-! ## The tree functions are the heap functions -/

theorem hashT_eq (t : Tree) (st : HSt) : hashT t st =
    if st.count < 0 ∨ st.limit - 1 < 0 then { st with limit := st.limit - 1 }
    else
      match t with
      | .int k => combine { st with limit := st.limit - 1, count := st.count - 1 } k
      | .con tag ts => hashTs ts (combineSmall { st with limit := st.limit - 1, count := st.count - 1 } tag)
      | .str s => combineTail s s.length 1
          (combineBytes { st with limit := st.limit - 1, count := st.count - 1 } (s.take 128))
      | .real b => combineBytes { st with limit := st.limit - 1, count := st.count - 1 } (dblBytes b)
      | .ident _ => combineSmall { st with limit := st.limit - 1, count := st.count - 1 } 250 := by
  cases t <;> simp only [hashT]

theorem hashFields_append (f : Val → HSt → Option HSt) (a b : List Val) (st : HSt) :
    hashFields f (a ++ b) st = (hashFields f a st).bind (hashFields f b) := by
  induction a generalizing st with
  | nil => rfl
  | cons x a ih =>
      simp only [List.cons_append, hashFields]
      cases f x st with
      | none => rfl
      | some st1 => simp only [Option.bind_some]; exact ih st1

mutual
theorem hash_tree (h : Heap) : ∀ (t : Tree) (v : Val) (n : Nat) (st : HSt), Reps h v t →
    t.height ≤ n → hashAux n h v st = some (hashT t st)
  | t, v, 0, st, _, hn => by cases t <;> simp [Mosml.Equal.Tree.height] at hn
  | t, v, n + 1, st, hr, hn => by
      rw [Mosml.Equal.hashAux_succ, hashT_eq]
      split
      · rfl
      · unfold hashStep
        match t, hr, hn with
        | .int k, hr, _ => simp only [Reps] at hr; subst hr; rfl
        | .str s, hr, _ => obtain ⟨a, rfl, ha⟩ := hr; simp only [ha]
        | .real s, hr, _ => obtain ⟨a, rfl, ha⟩ := hr; simp only [ha]
        | .ident a, hr, _ => obtain ⟨rfl, fs, ha⟩ := hr; simp only [ha]; rfl
        | .con tag .nil, hr, _ => simp only [Reps] at hr; subst hr; simp only [hashTs]
        | .con tag (.cons t ts), hr, hn =>
            simp only [Reps] at hr
            obtain ⟨htag, a, x, xs, rfl, ha, hx, hxs⟩ := hr
            simp only [ha]
            rw [if_neg (by omega)]
            exact hash_trees h (.cons t ts) (x :: xs) n _ ⟨x, xs, rfl, hx, hxs⟩
              (by simp only [Mosml.Equal.Tree.height] at hn; omega)
theorem hash_trees (h : Heap) : ∀ (ts : Trees) (vs : List Val) (n : Nat) (st : HSt), RepsL h vs ts →
    ts.height ≤ n → hashFields (hashAux n h) vs.reverse st = some (hashTs ts st)
  | .nil, vs, n, st, hr, _ => by simp only [RepsL] at hr; subst hr; rfl
  | .cons t ts, vs, n, st, hr, hn => by
      obtain ⟨x, xs, rfl, hx, hxs⟩ := hr
      simp only [Mosml.Equal.Trees.height] at hn
      rw [List.reverse_cons, hashFields_append, hash_trees h ts xs n st hxs (by omega)]
      simp only [Option.bind_some, hashFields, hashTs]
      rw [hash_tree h t x n _ hx (by omega)]
      rfl
end

theorem hash10_heap {h : Heap} {v : Val} {t : Tree} (hr : Reps h v t) :
    hashParam 101 h 10 100 v = some (hash10 t) := by
  obtain ⟨r, hr1, -, -⟩ := Mosml.Equal.C14_bounded h v 10 100 101 (by omega) (by omega)
  have h1 := Mosml.Equal.C14_fuel_irrelevant h v 10 100 101 t.height r hr1
  have h2 : hashParam (101 + t.height) h 10 100 v = some (hash10 t) := by
    unfold hashParam
    rw [hash_tree h t v (101 + t.height) _ hr (by omega)]
    rfl
  rw [hr1, ← h1, h2]

mutual
theorem eqT_iff : ∀ a b : Tree, eqT a b = true ↔ TreeEq a b
  | .int m, b => by
      cases b <;> simp only [eqT, beq_iff_eq, Bool.false_eq_true, false_iff]
      case int n => constructor
                    · rintro rfl; exact .int _
                    · rintro ⟨⟩; rfl
      all_goals (intro h; cases h)
  | .str m, b => by
      cases b <;> simp only [eqT, beq_iff_eq, Bool.false_eq_true, false_iff]
      case str n => constructor
                    · rintro rfl; exact .str _
                    · rintro ⟨⟩; rfl
      all_goals (intro h; cases h)
  | .ident m, b => by
      cases b <;> simp only [eqT, beq_iff_eq, Bool.false_eq_true, false_iff]
      case ident n => constructor
                      · rintro rfl; exact .ident _
                      · rintro ⟨⟩; rfl
      all_goals (intro h; cases h)
  | .real m, b => by
      cases b <;> simp only [eqT, Bool.false_eq_true, false_iff]
      case real n => constructor
                     · intro h; exact .real h
                     · rintro ⟨h⟩; assumption
      all_goals (intro h; cases h)
  | .con s as, b => by
      cases b <;> simp only [eqT, Bool.false_eq_true, false_iff, Bool.and_eq_true, beq_iff_eq]
      case con t bs =>
        rw [eqTs_iff as bs]
        constructor
        · rintro ⟨rfl, h⟩; exact .con _ h
        · intro h
          cases h with
          | con _ h => exact ⟨rfl, h⟩
      all_goals (intro h; cases h)
theorem eqTs_iff : ∀ a b : Trees, eqTs a b = true ↔ TreesEq a b
  | .nil, b => by
      cases b <;> simp only [eqTs, Bool.false_eq_true, false_iff, true_iff]
      · exact .nil
      · intro h; cases h
  | .cons a as, b => by
      cases b <;> simp only [eqTs, Bool.false_eq_true, false_iff, Bool.and_eq_true]
      · intro h; cases h
      case cons b bs =>
        rw [eqT_iff a b, eqTs_iff as bs]
        constructor
        · rintro ⟨h1, h2⟩; exact .cons h1 h2
        · intro h
          cases h with
          | cons h1 h2 => exact ⟨h1, h2⟩
end

/-! ## Equality of constants -/

/-- a zero of either sign -/
def isZero (b : Nat) : Prop := b % 2 ^ 63 = 0

mutual
/-- The same constant, except perhaps for the sign of zeros. -/
def SC.zeq : SC → SC → Prop
  | .int i, .int j => i = j
  | .word i, .word j => i = j
  | .char i, .char j => i = j
  | .real i, .real j => i = j ∨ isZero i ∧ isZero j
  | .str i, .str j => i = j
  | .block t n as, .block t' n' bs => t = t' ∧ n = n' ∧ zeqs as bs
  | _, _ => False
def zeqs : List SC → List SC → Prop
  | [], [] => True
  | a :: as, b :: bs => a.zeq b ∧ zeqs as bs
  | _, _ => False
end

mutual
/-- The constant contains no zero of type real. -/
def SC.NoZero : SC → Prop
  | .real b => ¬ isZero b
  | .block _ _ as => NoZeros as
  | _ => True
def NoZeros : List SC → Prop
  | [] => True
  | a :: as => a.NoZero ∧ NoZeros as
end

mutual
/-- The constant contains no NaN (no literal denotes one), and its strings are shorter
than 2^31. -/
def SC.Plain : SC → Prop
  | .real b => isNaN b = false
  | .str s => s.length < 2 ^ 31
  | .block _ _ as => Plains as
  | _ => True
def Plains : List SC → Prop
  | [] => True
  | a :: as => a.Plain ∧ Plains as
end

theorem dblEq_zero {a b : Nat} (h : dblEq a b = true) : a = b ∨ isZero a ∧ isZero b := by
  unfold dblEq at h
  simp only [Bool.and_eq_true, Bool.or_eq_true, beq_iff_eq] at h
  exact h.2

mutual
theorem zeq_of_eqT : ∀ k c : SC, eqT (encSC k) (encSC c) = true → k.zeq c
  | .block t n as, c => by
      cases c
      case block t' n' bs =>
        simp only [encSC, eqT, eqTs, SC.zeq, Bool.and_eq_true, beq_iff_eq, and_true]
        rintro ⟨-, ⟨-, h1, h2⟩, h3⟩
        exact ⟨by exact_mod_cast h1, by exact_mod_cast h2, zeqs_of_eqT as bs h3⟩
      all_goals simp [encSC, atomT, eqT]
  | .real b, c => by
      cases c <;> simp [encSC, atomT, eqT, eqTs, SC.zeq]
      exact dblEq_zero
  | .int b, c => by cases c <;> simp [encSC, atomT, eqT, eqTs, SC.zeq]
  | .word b, c => by cases c <;> simp [encSC, atomT, eqT, eqTs, SC.zeq]
  | .char b, c => by cases c <;> simp [encSC, atomT, eqT, eqTs, SC.zeq]
  | .str b, c => by cases c <;> simp [encSC, atomT, eqT, eqTs, SC.zeq]
theorem zeqs_of_eqT : ∀ k c : List SC, eqT (encArgs k) (encArgs c) = true → zeqs k c
  | [], [] => fun _ => trivial
  | [], _ :: _ => by simp [encArgs, eqT]
  | _ :: _, [] => by simp [encArgs, eqT]
  | a :: as, b :: bs => by
      simp only [encArgs, eqT, eqTs, Bool.and_eq_true, beq_self_eq_true, true_and, and_true, zeqs]
      rintro ⟨h1, h2⟩
      exact ⟨zeq_of_eqT a b h1, zeqs_of_eqT as bs h2⟩
end

mutual
theorem eq_of_zeq : ∀ k c : SC, k.zeq c → c.NoZero → k = c
  | .block t n as, c => by
      cases c <;> simp only [SC.zeq, false_implies, SC.NoZero]
      case block t' n' bs =>
        rintro ⟨rfl, rfl, h⟩ hn
        rw [eqs_of_zeqs as bs h hn]
  | .real b, c => by
      cases c <;> simp only [SC.zeq, false_implies, SC.NoZero]
      rintro (rfl | ⟨_, h⟩) hn
      · rfl
      · exact absurd h hn
  | .int b, c => by cases c <;> simp [SC.zeq, SC.NoZero]
  | .word b, c => by cases c <;> simp [SC.zeq, SC.NoZero]
  | .char b, c => by cases c <;> simp [SC.zeq, SC.NoZero]
  | .str b, c => by cases c <;> simp [SC.zeq, SC.NoZero]
theorem eqs_of_zeqs : ∀ k c : List SC, zeqs k c → NoZeros c → k = c
  | [], [] => fun _ _ => rfl
  | [], _ :: _ => by simp [zeqs]
  | _ :: _, [] => by simp [zeqs]
  | a :: as, b :: bs => by
      simp only [zeqs, NoZeros]
      rintro ⟨h1, h2⟩ ⟨h3, h4⟩
      rw [eq_of_zeq a b h1 h3, eqs_of_zeqs as bs h2 h4]
end

mutual
theorem zeq_refl : ∀ c : SC, c.zeq c
  | .block _ _ as => ⟨rfl, rfl, zeqs_refl as⟩
  | .real _ => Or.inl rfl
  | .int _ => rfl
  | .word _ => rfl
  | .char _ => rfl
  | .str _ => rfl
theorem zeqs_refl : ∀ c : List SC, zeqs c c
  | [] => trivial
  | a :: as => ⟨zeq_refl a, zeqs_refl as⟩
end

theorem eqFields_mono {f g : Val → Val → Option Mosml.Equal.Res}
    (hfg : ∀ a b r, f a b = some r → g a b = some r) :
    ∀ (as bs : List Val) (r : Mosml.Equal.Res), Mosml.Equal.eqFields f as bs = some r →
      Mosml.Equal.eqFields g as bs = some r := by
  intro as
  induction as with
  | nil => intro bs r h; cases bs <;> exact h
  | cons a as ih =>
      intro bs r h
      cases bs with
      | nil => cases as <;> exact h
      | cons b bs =>
          cases as with
          | nil =>
              cases bs with
              | nil => exact hfg a b r h
              | cons b' bs =>
                  simp only [Mosml.Equal.eqFields] at h ⊢
                  cases hf : f a b with
                  | none => rw [hf] at h; cases h
                  | some q => rw [hf] at h; rw [hfg a b q hf]; cases q <;> exact h
          | cons a' as =>
              have hstep : ∀ e : Val → Val → Option Mosml.Equal.Res,
                  Mosml.Equal.eqFields e (a :: a' :: as) (b :: bs) =
                    match e a b with
                    | some .tt => Mosml.Equal.eqFields e (a' :: as) bs
                    | r => r := by
                intro e
                cases bs <;> simp only [Mosml.Equal.eqFields] <;>
                  (cases e a b with | none => rfl | some q => cases q <;> rfl)
              rw [hstep] at h ⊢
              cases hf : f a b with
              | none => rw [hf] at h; cases h
              | some q =>
                  rw [hf] at h; rw [hfg a b q hf]
                  cases q with
                  | tt => exact ih bs r h
                  | ff => exact h
                  | exn => exact h

theorem eqAux_succ (n : Nat) (h : Heap) (v1 v2 : Val) :
    eqAux (n + 1) h v1 v2 =
      if v1 = v2 then some .tt
      else match v1, v2 with
        | .ptr a, .ptr b =>
          match h a, h b with
          | some o1, some o2 => Mosml.Equal.eqObj (eqAux n h) o1 o2
          | _, _ => some .ff
        | _, _ => some .ff := rfl

theorem eqAux_succ_mono {h : Heap} (n : Nat) : ∀ (v1 v2 : Val) (r : Mosml.Equal.Res),
    eqAux n h v1 v2 = some r → eqAux (n + 1) h v1 v2 = some r := by
  induction n with
  | zero => intro v1 v2 r hr; cases hr
  | succ n ih =>
      intro v1 v2 r hr
      rw [eqAux_succ] at hr ⊢
      split
      next he => rw [if_pos he] at hr; exact hr
      next he =>
        rw [if_neg he] at hr
        cases v1 <;> cases v2 <;> try exact hr
        rename_i a b
        simp only at hr ⊢
        generalize h a = x at *
        generalize h b = y at *
        cases x <;> cases y <;> try exact hr
        rename_i o1 o2
        simp only [Mosml.Equal.eqObj] at hr ⊢
        split
        next ht =>
          rw [if_pos ht] at hr
          cases o1 <;> cases o2 <;> try exact hr
          rename_i t f1 t' f2
          simp only at hr ⊢
          split
          · rename_i h1; rw [if_pos h1] at hr; exact hr
          · rename_i h1
            rw [if_neg h1] at hr
            split
            · rename_i h2; rw [if_pos h2] at hr; exact hr
            · rename_i h2
              rw [if_neg h2] at hr
              split
              · rename_i h3
                rw [if_pos h3] at hr
                exact eqFields_mono ih f1 f2 r hr
              · rename_i h3; rw [if_neg h3] at hr; exact hr
        next ht => rw [if_neg ht] at hr; exact hr

theorem eqAux_mono {h : Heap} {n : Nat} {v1 v2 : Val} {r : Mosml.Equal.Res}
    (hr : eqAux n h v1 v2 = some r) (m : Nat) : eqAux (n + m) h v1 v2 = some r := by
  induction m with
  | zero => exact hr
  | succ m ih => exact eqAux_succ_mono _ _ _ _ ih

mutual
theorem encSC_ok : ∀ c : SC, c.Plain → (encSC c).Ok
  | .block t n as => by
      intro h
      have := encArgs_ok as h
      simp only [Mosml.Equal.Tree.Ok] at this
      simp [encSC, Mosml.Equal.Tree.Ok, Mosml.Equal.Tree.All, Mosml.Equal.Trees.All, this, -Nat.reducePow]
  | .real b => by simp [encSC, atomT, Mosml.Equal.Tree.Ok, Mosml.Equal.Tree.All, Mosml.Equal.Trees.All, SC.Plain]
  | .str b => by simp [encSC, atomT, Mosml.Equal.Tree.Ok, Mosml.Equal.Tree.All, Mosml.Equal.Trees.All, SC.Plain]
  | .int b => by simp [encSC, atomT, Mosml.Equal.Tree.Ok, Mosml.Equal.Tree.All, Mosml.Equal.Trees.All]
  | .word b => by simp [encSC, atomT, Mosml.Equal.Tree.Ok, Mosml.Equal.Tree.All, Mosml.Equal.Trees.All]
  | .char b => by simp [encSC, atomT, Mosml.Equal.Tree.Ok, Mosml.Equal.Tree.All, Mosml.Equal.Trees.All]
theorem encArgs_ok : ∀ c : List SC, Plains c → (encArgs c).Ok
  | [] => by simp [encArgs, Mosml.Equal.Tree.Ok, Mosml.Equal.Tree.All, Mosml.Equal.Trees.All]
  | a :: as => by
      rintro ⟨h1, h2⟩
      have h1 := encSC_ok a h1
      have h2 := encArgs_ok as h2
      simp only [Mosml.Equal.Tree.Ok] at h1 h2
      simp [encArgs, Mosml.Equal.Tree.Ok, Mosml.Equal.Tree.All, Mosml.Equal.Trees.All, h1, h2, -Nat.reducePow]
end

end Mosml.Emit
