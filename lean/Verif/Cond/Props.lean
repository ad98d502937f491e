import Verif.Cond.Model
import Mathlib.Algebra.Order.Ring.Int

/-!
# C57: comparisons, and jumps on comparisons

What the comparison operators say about integers, words, strings and reals, and that a
conditional takes the branch that the value of its condition prescribes.
-/

namespace Mosml.Cond
open Mosml.Emit (Cmp CmpKind Test Zam Op Glob SC loadInt loadConst fits31 neqImm)
open Mosml.Strings (Bytes maxlen compareStrings tagged)
open Mosml.Equal (isNaN)

/-! ## What the operators mean -/

/-- The relation that an operator denotes on an ordered type. -/
def rel {α : Type} [LT α] (c : Cmp) (x y : α) : Prop :=
  match c with
  | .eq => x = y
  | .ne => x ≠ y
  | .lt => x < y
  | .gt => y < x
  | .le => ¬ y < x
  | .ge => ¬ x < y

/-- The magnitude of a double in units of 2^-1074 (infinity: 2^2098). -/
def magVal (m : Nat) : Nat :=
  if m / 2 ^ 52 = 0 then m % 2 ^ 52 else (2 ^ 52 + m % 2 ^ 52) * 2 ^ (m / 2 ^ 52 - 1)

/-- The number that a double other than NaN denotes, in units of 2^-1074. -/
def realVal (b : Nat) : Int := if b < 2 ^ 63 then magVal b else -(magVal (b - 2 ^ 63) : Int)

/-- The number that a word denotes. -/
def wordVal (i : Int) : Int := i % 2 ^ 63

/-- A string that the runtime system can hold. -/
def StrOk (s : Bytes) : Prop := (∀ c ∈ s, c < 256) ∧ s.length ≤ maxlen

/-- The comparison of two values of one type is the mathematical one: integers and words
by their numbers, strings lexicographically by characters, reals by their numbers; a
NaN is only different from everything. -/
inductive Holds : CmpKind → Cmp → Val → Val → Prop → Prop where
  | int (c : Cmp) (a b : Int) : Holds .int c (.int a) (.int b) (rel c a b)
  | word (c : Cmp) (a b : Int) : Holds .word c (.int a) (.int b) (rel c (wordVal a) (wordVal b))
  | str (c : Cmp) {s t : Bytes} (hs : StrOk s) (ht : StrOk t) : Holds .str c (.str s) (.str t) (rel c s t)
  | real (c : Cmp) {a b : Nat} (ha : a < 2 ^ 64) (hb : b < 2 ^ 64) (na : isNaN a = false)
      (nb : isNaN b = false) : Holds .float c (.real a) (.real b) (rel c (realVal a) (realVal b))
  | nan (c : Cmp) {a b : Nat} (h : isNaN a = true ∨ isNaN b = true) :
      Holds .float c (.real a) (.real b) (c = .ne)

theorem cmpInt_rel (c : Cmp) (x y : Int) : cmpInt c x y = true ↔ rel c x y := by
  cases c <;> simp [cmpInt, rel]

theorem magVal_lt {m n : Nat} (h : m < n) : magVal m < magVal n := by
  unfold magVal
  have hm : m % 2 ^ 52 < 2 ^ 52 := Nat.mod_lt _ (by positivity)
  have hn : n % 2 ^ 52 < 2 ^ 52 := Nat.mod_lt _ (by positivity)
  have em := Nat.div_add_mod m (2 ^ 52)
  have en := Nat.div_add_mod n (2 ^ 52)
  generalize m / 2 ^ 52 = e at *
  generalize n / 2 ^ 52 = f at *
  generalize m % 2 ^ 52 = x at *
  generalize n % 2 ^ 52 = y at *
  have hef : e ≤ f := by
    by_contra hc
    have : f + 1 ≤ e := by omega
    have : 2 ^ 52 * (f + 1) ≤ 2 ^ 52 * e := Nat.mul_le_mul_left _ this
    omega
  by_cases hf : f = 0
  · have : e = 0 := by omega
    subst this; subst hf
    simp only [if_true]; omega
  rw [if_neg hf]
  by_cases he : e = 0
  · rw [if_pos he]
    have : 1 ≤ 2 ^ (f - 1) := Nat.one_le_two_pow
    calc x < 2 ^ 52 + y := by omega
      _ = (2 ^ 52 + y) * 1 := (Nat.mul_one _).symm
      _ ≤ (2 ^ 52 + y) * 2 ^ (f - 1) := Nat.mul_le_mul_left _ this
  · rw [if_neg he]
    rcases Nat.lt_or_eq_of_le hef with hlt | rfl
    · have h1 : (2 ^ 52 + x) * 2 ^ (e - 1) < 2 ^ 53 * 2 ^ (e - 1) :=
        Nat.mul_lt_mul_of_pos_right (by omega) (by positivity)
      have h2 : 2 ^ 53 * 2 ^ (e - 1) = 2 ^ 52 * 2 ^ (e - 1 + 1) := by ring
      have h3 : 2 ^ (e - 1 + 1) ≤ 2 ^ (f - 1) := Nat.pow_le_pow_right (by omega) (by omega)
      have h4 : 2 ^ 52 * 2 ^ (e - 1 + 1) ≤ (2 ^ 52 + y) * 2 ^ (f - 1) :=
        Nat.mul_le_mul (by omega) h3
      omega
    · exact Nat.mul_lt_mul_of_pos_right (by omega) (by positivity)

theorem magVal_zero : magVal 0 = 0 := by simp [magVal]

theorem realVal_lt {a b : Nat} (h : dblKey a < dblKey b) : realVal a < realVal b := by
  unfold dblKey at h
  unfold realVal
  by_cases ha : a < 2 ^ 63 <;> by_cases hb : b < 2 ^ 63 <;> simp only [ha, hb, if_true, if_false] at h ⊢
  · exact_mod_cast magVal_lt (by omega)
  · omega
  · have h1 : 0 < magVal b ∨ 0 < magVal (a - 2 ^ 63) := by
      by_cases hz : b = 0
      · right
        have := magVal_lt (m := 0) (n := a - 2 ^ 63) (by omega)
        omega
      · left
        have := magVal_lt (m := 0) (n := b) (by omega)
        omega
    omega
  · have := magVal_lt (m := b - 2 ^ 63) (n := a - 2 ^ 63) (by omega)
    omega

theorem realVal_eq {a b : Nat} (h : dblKey a = dblKey b) : realVal a = realVal b := by
  unfold dblKey at h
  unfold realVal
  by_cases ha : a < 2 ^ 63 <;> by_cases hb : b < 2 ^ 63 <;> simp only [ha, hb, if_true, if_false] at h ⊢
  · have : a = b := by omega
    rw [this]
  · have h1 : a = 0 := by omega
    have h2 : b - 2 ^ 63 = 0 := by omega
    rw [h1, h2, magVal_zero]; rfl
  · have h1 : b = 0 := by omega
    have h2 : a - 2 ^ 63 = 0 := by omega
    rw [h1, h2, magVal_zero]; rfl
  · have : a - 2 ^ 63 = b - 2 ^ 63 := by omega
    rw [this]

theorem rel_transfer {α β : Type} [LinearOrder α] [LinearOrder β] (f : α → β) {x y : α}
    (h1 : x < y → f x < f y) (h2 : y < x → f y < f x) (h3 : x = y → f x = f y) (c : Cmp) :
    rel c (f x) (f y) ↔ rel c x y := by
  rcases lt_trichotomy x y with h | h | h
  · have h' := h1 h
    cases c <;> simp [rel, h, h', h.ne, h'.ne, h.not_gt, h'.not_gt]
  · have h' := h3 h
    cases c <;> simp [rel, h]
  · have h' := h2 h
    cases c <;> simp [rel, h, h', h.ne', h'.ne', h.not_gt, h'.not_gt]

theorem rel_dbl (c : Cmp) (a b : Nat) : cmpInt c (dblKey a) (dblKey b) = true ↔ rel c (realVal a) (realVal b) := by
  rw [cmpInt_rel]
  rcases lt_trichotomy (dblKey a) (dblKey b) with h | h | h
  · have h' := realVal_lt h
    cases c <;> simp [rel, h, h', h.ne, h'.ne, h.not_gt, h'.not_gt]
  · have h' := realVal_eq h
    cases c <;> simp [rel, h, h']
  · have h' := realVal_lt h
    cases c <;> simp [rel, h, h', h.ne', h'.ne', h.not_gt, h'.not_gt]

theorem rel_str (c : Cmp) {s t : Bytes} (hs : StrOk s) (ht : StrOk t) :
    cmpInt c (tagged (compareStrings (strBlk s) (strBlk t))) (tagged 0) = true ↔ rel c s t := by
  rw [cmpInt_rel]
  have h := Mosml.Strings.compareStrings_spec (Mosml.Strings.mkStr_isStr s hs.1 hs.2)
    (Mosml.Strings.mkStr_isStr t ht.1 ht.2)
  unfold strBlk
  generalize compareStrings (Mosml.Strings.mkStr s) (Mosml.Strings.mkStr t) = r at *
  unfold tagged
  rcases h with ⟨h, hl⟩ | ⟨h, hl⟩ | ⟨rfl, rfl⟩
  · have h1 : (2 * r + 1) < (2 * 0 + 1) := by omega
    have h2 : s ≠ t := by rintro rfl; exact List.lt_irrefl _ hl
    have h3 : ¬ t < s := List.lt_asymm hl
    cases c <;> simp only [rel, h1, h1.ne, h1.not_gt, hl, h2, h3, not_true, not_false_iff, ne_eq]
  · have h1 : (2 * 0 + 1) < (2 * r + 1) := by omega
    have h2 : s ≠ t := by rintro rfl; exact List.lt_irrefl _ hl
    have h3 : ¬ s < t := List.lt_asymm hl
    cases c <;> simp only [rel, h1, h1.ne', h1.not_gt, hl, h2, h3, not_true, not_false_iff, ne_eq]
  · cases c <;> simp [rel]

/-- C57: a comparison of two values of one type has a result, and it is the mathematical
one. -/
theorem C57_comparison {k : CmpKind} {c : Cmp} {x y : Val} {P : Prop} (h : Holds k c x y P) :
    ∃ b, compareVals k c x y = some b ∧ (b = true ↔ P) := by
  cases h with
  | int c a b =>
      refine ⟨_, rfl, ?_⟩
      rw [cmpInt_rel]
      exact rel_transfer (fun x : Int => 2 * x + 1) (by intro h; omega) (by intro h; omega) (by rintro rfl; rfl) c
  | word c a b =>
      refine ⟨_, rfl, ?_⟩
      rw [cmpInt_rel]
      have e : ∀ i, unsTagged i = 2 * wordVal i + 1 := by intro i; unfold unsTagged wordVal; omega
      rw [e, e]
      exact rel_transfer (fun x : Int => 2 * x + 1) (by intro h; omega) (by intro h; omega)
        (by intro h; rw [h]) c
  | str c hs ht => exact ⟨_, rfl, rel_str c hs ht⟩
  | real c ha hb na nb =>
      refine ⟨_, rfl, ?_⟩
      unfold cmpDbl
      rw [na, nb]
      exact rel_dbl c _ _
  | nan c h =>
      refine ⟨_, rfl, ?_⟩
      unfold cmpDbl
      rw [if_pos (by simpa using h)]
      simp

/-! ## Jumps -/

/-- The operand kinds of the tests with two operands. -/
def Test.kindOf : Test → Option (CmpKind × Cmp)
  | .eq => some (.int, .eq)
  | .noteq => some (.int, .ne)
  | .int c => some (.int, c)
  | .float c => some (.float, c)
  | .str c => some (.str, c)
  | .word c => some (.word, c)
  | _ => none

/-- Same destination and same stack (accu is dead after these jumps). -/
inductive SameOut : Option Out → Option Out → Prop where
  | fall (a b : Val) (s : List Val) : SameOut (some (.fall ⟨a, s⟩)) (some (.fall ⟨b, s⟩))
  | jump (l : Nat) (a b : Val) (s : List Val) : SameOut (some (.jump l ⟨a, s⟩)) (some (.jump l ⟨b, s⟩))

theorem sameOut_branch (b : Bool) (l : Nat) (v w : Val) (s : List Val) :
    SameOut (some (branchOn b l ⟨v, s⟩)) (some (branchOn b l ⟨w, s⟩)) := by
  cases b
  · exact .fall _ _ _
  · exact .jump _ _ _ _

/-- What a test makes of its operands, as a value. -/
theorem exec_value {t : Test} {k : CmpKind} {c : Cmp} (ht : Test.kindOf t = some (k, c)) {x y : Val} {b : Bool}
    (hb : compareVals k c x y = some b) (s : List Val) :
    exec (Zam.ops (.prim (.test t))) ⟨y, x :: s⟩ = some (.fall ⟨boolAtom b, s⟩) := by
  cases t <;> simp only [Test.kindOf, Option.some.injEq, Prod.mk.injEq, reduceCtorEq] at ht <;>
    obtain ⟨rfl, rfl⟩ := ht <;>
    simp only [Zam.ops, Mosml.Emit.Test.kind?, exec, step, hb, Option.map_some, Option.bind_some]

/-- What a test makes of its operands, as a jump. -/
theorem exec_jump {t : Test} {k : CmpKind} {c : Cmp} (ht : Test.kindOf t = some (k, c)) {x y : Val} {b : Bool}
    (hb : compareVals k c x y = some b) (l : Nat) (s : List Val) :
    ∃ v, exec (Zam.ops (.test t l)) ⟨y, x :: s⟩ = some (branchOn b l ⟨v, s⟩) := by
  have hfix : ∀ v : Val, (match branchOn b l ⟨v, s⟩ with
      | .fall m' => exec [] m'
      | .jump l m' => some (.jump l m')) = some (branchOn b l ⟨v, s⟩) := by
    intro v; cases b <;> rfl
  cases t <;> simp only [Test.kindOf, Option.some.injEq, Prod.mk.injEq, reduceCtorEq] at ht <;>
    obtain ⟨rfl, rfl⟩ := ht
  case eq => exact ⟨y, by simp only [Zam.ops, Mosml.Emit.Test.branch, exec, step, hb, Option.map_some, Option.bind_some]; exact hfix _⟩
  case noteq => exact ⟨y, by simp only [Zam.ops, Mosml.Emit.Test.branch, exec, step, hb, Option.map_some, Option.bind_some]; exact hfix _⟩
  case int => exact ⟨y, by simp only [Zam.ops, Mosml.Emit.Test.branch, exec, step, hb, Option.map_some, Option.bind_some]; exact hfix _⟩
  all_goals
    refine ⟨boolAtom b, ?_⟩
    simp only [Zam.ops, Mosml.Emit.Test.branch, exec, step, hb, Option.map_some, Option.bind_some]
    cases b <;> rfl

/-- Inverting the operator inverts the outcome, except for a NaN. -/
theorem compare_invert {k : CmpKind} {c : Cmp} {x y : Val} {b : Bool} (hb : compareVals k c x y = some b)
    (hn : ∀ a a', x = .real a → y = .real a' → c = .eq ∨ c = .ne ∨ isNaN a = false ∧ isNaN a' = false) :
    compareVals k (invertPrim c) x y = some (!b) := by
  have hi : ∀ (c : Cmp) (p q : Int), cmpInt (invertPrim c) p q = !cmpInt c p q := by
    intro c p q
    cases c <;> simp only [cmpInt, invertPrim, bne, Bool.not_not] <;> rw [← decide_not] <;> congr 1 <;>
      simp [not_lt, not_le]
  cases k <;> cases x <;> cases y <;> simp only [compareVals, Option.some.injEq, reduceCtorEq] at hb ⊢
  case int.int.int => rw [hi, hb]
  case int.atom.atom => cases c <;> simp [invertPrim] at hb ⊢ <;> subst hb <;> simp [bne]
  case int.ptr.ptr => cases c <;> simp [invertPrim] at hb ⊢ <;> subst hb <;> simp [bne]
  case float.real.real a a' =>
    rw [← hb]
    unfold cmpDbl
    by_cases hN : (isNaN a || isNaN a') = true
    · rw [if_pos hN, if_pos hN]
      rcases hn a a' rfl rfl with rfl | rfl | ⟨h1, h2⟩
      · rfl
      · rfl
      · rw [h1, h2] at hN; cases hN
    · rw [if_neg hN, if_neg hN, hi]
  case str.str.str => rw [hi, hb]
  case word.int.int => rw [hi, hb]

theorem exec_append (a b : List (Op Nat Glob)) (m m' : M) (h : exec a m = some (.fall m')) :
    exec (a ++ b) m = exec b m' := by
  induction a generalizing m with
  | nil => cases h; rfl
  | cons op a ih =>
      simp only [List.cons_append, exec] at h ⊢
      cases hs : step op m with
      | none => rw [hs] at h; cases h
      | some r =>
          rw [hs] at h
          cases r with
          | fall m1 => exact ih m1 h
          | jump l m1 => cases h

/-- The two instructions that a test and a jump stand for. -/
def plain (t : Test) (l : Nat) (neg : Bool) : List Zam :=
  [.prim (.test t), if neg then .branchifnot l else .branchif l]

theorem exec_plain {t : Test} {k : CmpKind} {c : Cmp} (ht : Test.kindOf t = some (k, c)) {x y : Val} {b : Bool}
    (hb : compareVals k c x y = some b) (l : Nat) (neg : Bool) (s : List Val) :
    execZ (plain t l neg) ⟨y, x :: s⟩ = some (branchOn (b ^^ neg) l ⟨boolAtom b, s⟩) := by
  unfold execZ plain
  rw [List.flatMap_cons, exec_append _ _ _ _ (exec_value ht hb s)]
  cases neg <;> cases b <;> rfl

/-- C57: a conditional on a comparison goes where the value of the comparison says.  The
code generator's short form for a comparison followed by a jump (`compTest`) has the
same effect as computing the truth value and then jumping on it.  Missing: orders
(`<`, `>`, `<=`, `>=`) on a NaN in a jump on falsehood, where this is not so
(`C57_nan_violation`). -/
theorem C57_condition_partial {t : Test} {k : CmpKind} {c : Cmp} (ht : Test.kindOf t = some (k, c)) {x y : Val}
    {b : Bool} (hb : compareVals k c x y = some b) (l : Nat) (neg : Bool) (s : List Val) (C : List Zam)
    (hn : neg = true →
      ∀ a a', x = .real a → y = .real a' → c = .eq ∨ c = .ne ∨ isNaN a = false ∧ isNaN a' = false) :
    ∃ z, compTest t ((if neg then .branchifnot l else .branchif l) :: C) = some (z :: C) ∧
      SameOut (execZ [z] ⟨y, x :: s⟩) (execZ (plain t l neg) ⟨y, x :: s⟩) := by
  rw [exec_plain ht hb]
  cases neg with
  | false =>
      refine ⟨.test t l, rfl, ?_⟩
      obtain ⟨v, hv⟩ := exec_jump ht hb l s
      have : execZ [.test t l] ⟨y, x :: s⟩ = some (branchOn b l ⟨v, s⟩) := by
        unfold execZ; simpa using hv
      rw [this, Bool.xor_false]
      exact sameOut_branch _ _ _ _ _
  | true =>
      have hb' := compare_invert hb (hn rfl)
      have : ∃ t', invertTest t = some t' ∧ Test.kindOf t' = some (k, invertPrim c) := by
        cases t <;> simp only [Test.kindOf, Option.some.injEq, Prod.mk.injEq, reduceCtorEq] at ht <;>
          obtain ⟨rfl, rfl⟩ := ht <;> exact ⟨_, rfl, rfl⟩
      obtain ⟨t', h1, h2⟩ := this
      refine ⟨.test t' l, by simp [compTest, h1], ?_⟩
      obtain ⟨v, hv⟩ := exec_jump h2 hb' l s
      have : execZ [.test t' l] ⟨y, x :: s⟩ = some (branchOn (!b) l ⟨v, s⟩) := by
        unfold execZ; simpa using hv
      rw [this, Bool.xor_true]
      exact sameOut_branch _ _ _ _ _

example : Test.kindOf (.word .lt) = some (.word, .lt) ∧
    compareVals .word .lt (.int 5) (.int (-1)) = some true ∧
    compareVals .int .lt (.int 5) (.int (-1)) = some false := by decide

/-- the bits of a NaN and of 1.0 -/
def nanBits : Nat := 2047 * 2 ^ 52 + 2 ^ 51
def oneBits : Nat := 1023 * 2 ^ 52

/-- C57, FINDING: `if x < 1.0 then A else B` takes the branch A when x is a NaN (as
PackRealBig.fromBytes can make one), although `x < 1.0` is false: the jump to B is taken
if `x >= 1.0`. -/
theorem C57_nan_violation (l : Nat) (C : List Zam) :
    execZ [.prim (.test (.float .lt))] ⟨.real oneBits, [.real nanBits]⟩ = some (.fall ⟨boolAtom false, []⟩) ∧
    execZ (plain (.float .lt) l true) ⟨.real oneBits, [.real nanBits]⟩ =
      some (.jump l ⟨boolAtom false, []⟩) ∧
    ∃ z, compTest (.float .lt) (.branchifnot l :: C) = some (z :: C) ∧
      execZ [z] ⟨.real oneBits, [.real nanBits]⟩ = some (.fall ⟨boolAtom false, []⟩) := by
  refine ⟨by rfl, by rfl, .test (.float .ge) l, rfl, by rfl⟩

/-! ## Constants in patterns -/

/-- Constants of one type with the value tested. -/
inductive SameType : SC → Val → Prop where
  | int (i a : Int) : SameType (.int i) (.int a)
  | word (i a : Int) : SameType (.word i) (.int a)
  | char (c : Nat) (a : Int) : SameType (.char c) (.int a)
  | real {b a : Nat} (hb : b < 2 ^ 64) (ha : a < 2 ^ 64) : SameType (.real b) (.real a)
  | str {s t : Bytes} (hs : StrOk s) (ht : StrOk t) : SameType (.str s) (.str t)

/-- When a value matches a constant pattern. -/
def MatchesConst : SC → Val → Prop
  | .int i, .int a => a = i
  | .word i, .int a => wordVal a = wordVal i
  | .char c, .int a => a = c
  | .real b, .real a => isNaN a = false ∧ isNaN b = false ∧ realVal a = realVal b
  | .str s, .str t => t = s
  | _, _ => False

theorem exec_loadInt (i : Int) (m : M) : step (loadInt i) m = some (.fall ⟨.int i, m.stack⟩) := by
  unfold loadInt
  split
  · have : (2 * i + 1 - 1) / 2 = i := by omega
    simp only [step, this]
  · simp only [step, atomVal, Option.map_some]

theorem exec_neqImm {k : CmpKind} {load : Op Nat Glob} {v c : Val} {b : Bool} (l : Nat) (s : List Val)
    (hl : ∀ m, step load m = some (.fall ⟨c, m.stack⟩)) (hb : compareVals k .eq v c = some b) :
    exec (neqImm k load l) ⟨v, s⟩ = some (branchOn (!b) l ⟨v, s⟩) := by
  unfold neqImm
  have h1 : ∀ (rest : List (Op Nat Glob)) (m : M),
      exec ({ kind := .push } :: rest) m = exec rest ⟨m.accu, m.accu :: m.stack⟩ := fun _ _ => rfl
  rw [h1, h1]
  have h2 : ∀ (rest : List (Op Nat Glob)) (m : M), exec (load :: rest) m = exec rest ⟨c, m.stack⟩ := by
    intro rest m; simp only [exec, hl, Option.bind_some]
  rw [h2]
  simp only [exec, step, hb, Option.map_some, Option.bind_some]
  cases b <;> rfl

/-- C57: the test of a constant pattern (`compTests`, Back.sml:733-748) goes on with the
next instruction if the value matches the constant, and to the next clause otherwise;
the value stays in accu. -/
theorem C57_constant_pattern {c : SC} {v : Val} (h : SameType c v) (l : Nat) (s : List Val) :
    ∃ t, testForAtom c = some t ∧
      (MatchesConst c v → execZ [.test t l] ⟨v, s⟩ = some (.fall ⟨v, s⟩)) ∧
      (¬ MatchesConst c v → execZ [.test t l] ⟨v, s⟩ = some (.jump l ⟨v, s⟩)) := by
  have fin : ∀ {t : Test} {b : Bool} {P : Prop}, (b = true ↔ P) →
      execZ [.test t l] ⟨v, s⟩ = some (branchOn (!b) l ⟨v, s⟩) →
      (P → execZ [.test t l] ⟨v, s⟩ = some (.fall ⟨v, s⟩)) ∧
      (¬ P → execZ [.test t l] ⟨v, s⟩ = some (.jump l ⟨v, s⟩)) := by
    intro t b P hb he
    rw [he]
    cases b
    · exact ⟨fun hp => absurd (hb.2 hp) (by simp), fun _ => rfl⟩
    · exact ⟨fun _ => rfl, fun hp => absurd (hb.1 rfl) hp⟩
  have one : ∀ (t : Test) (m : M), execZ [.test t l] m = exec (t.branch l) m := by
    intro t m; unfold execZ; simp [Zam.ops]
  cases h with
  | int i a =>
      obtain ⟨b, h1, h2⟩ := C57_comparison (Holds.int .eq a i)
      exact ⟨_, rfl, fin h2 (by rw [one]; exact exec_neqImm l s (exec_loadInt i) h1)⟩
  | word i a =>
      obtain ⟨b, h1, h2⟩ := C57_comparison (Holds.word .eq a i)
      exact ⟨_, rfl, fin h2 (by rw [one]; exact exec_neqImm l s (exec_loadInt i) h1)⟩
  | char c a =>
      obtain ⟨b, h1, h2⟩ := C57_comparison (Holds.int .eq a (c : Int))
      exact ⟨_, rfl, fin h2 (by rw [one]; exact exec_neqImm l s (exec_loadInt c) h1)⟩
  | real hb ha =>
      rename_i b0 a0
      have hc : ∃ b, compareVals .float .eq (.real a0) (.real b0) = some b ∧
          (b = true ↔ MatchesConst (.real b0) (.real a0)) := by
        by_cases hn : isNaN a0 = true ∨ isNaN b0 = true
        · obtain ⟨b, h1, h2⟩ := C57_comparison (Holds.nan .eq hn)
          refine ⟨b, h1, h2.trans ?_⟩
          simp only [MatchesConst, reduceCtorEq, false_iff]
          rcases hn with hn | hn <;> simp [hn]
        · rw [not_or, Bool.not_eq_true, Bool.not_eq_true] at hn
          obtain ⟨b, h1, h2⟩ := C57_comparison (Holds.real .eq ha hb hn.1 hn.2)
          refine ⟨b, h1, h2.trans ?_⟩
          simp [MatchesConst, rel, hn.1, hn.2]
      obtain ⟨b, h1, h2⟩ := hc
      exact ⟨_, rfl, fin h2 (by rw [one]; exact exec_neqImm (c := .real b0) l s (fun m => rfl) h1)⟩
  | str hs ht =>
      obtain ⟨b, h1, h2⟩ := C57_comparison (Holds.str .eq ht hs)
      exact ⟨_, rfl, fin h2 (by rw [one]; exact exec_neqImm (c := .str _) l s (fun m => rfl) h1)⟩

example : SameType (.str [65]) (.str [66]) ∧ ¬ MatchesConst (.str [65]) (.str [66]) :=
  ⟨.str ⟨by simp, by unfold maxlen; simp⟩ ⟨by simp, by unfold maxlen; simp⟩, by simp [MatchesConst]⟩

end Mosml.Cond
