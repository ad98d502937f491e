import Verif.Typing.Principal
import Verif.Typing.Safe

/-!
# Property C63: programs accepted by the type checker do not go wrong
-/

namespace Mosml.Typing

/-- A program that the type checker accepts does not go wrong: no application of something
that is not a function, no selection of a field that is not there, no dereferencing of
something that is not a reference, whatever the program does with polymorphism, references
and records. -/
theorem C63_accepted_safe (k : Nat) (e : Exp) (S : St) (h : check k e = .ok S) :
    ¬ GoesWrong e := by
  obtain ⟨t, ht⟩ := check_typ h
  exact typ_safe ht

/-- The types that the type checker finds are types in the sense of the declarative rules:
for every assignment of ground types to the variables of the final state that agrees with
the links, the program has the type assigned to its type variable. -/
theorem C63_accepted_typed (k : Nat) (e : Exp) (S : St)
    (h : elabExp k e 1 [] (.var 0) ((⟨[], []⟩ : St).fresh 1 false) = .ok S) :
    (∃ g, Sol S g) ∧ ∀ g, Sol S g → Typ [] e (g 0).1 := by
  obtain ⟨w1, x1, s1⟩ := elabExp_ok k e 1 [] (.var 0) _ S h rfl
    (WF_nil.of_img (img_fresh _ _ _)) (by intro p hp; simp at hp) (fresh_LE ⟨[], []⟩ 1 false)
  exact ⟨⟨_, sol_of S w1 fun _ => (.nil, noRow)⟩, fun g hg => s1 g hg⟩

/-- Typed programs do not go wrong. -/
theorem C63_typed_safe (e : Exp) (t : GTy) (h : Typ [] e t) : ¬ GoesWrong e := typ_safe h

/-- Unification: a solution of the resulting state is a solution of the original state, and
makes the two types equal. -/
theorem C63_unify_sound (k m : Nat) (S S' : St) (a b : Ty) (h : unify k S a b = .ok S')
    (hS : WF S) (ha : LE S m a) (hb : LE S m b) (g : Gam) (hg : Sol S' g) :
    Sol S g ∧ sem g a = sem g b := by
  obtain ⟨-, x, s⟩ := unify_ok m k S S' a b h hS ha hb
  exact ⟨x.sol g hg, s g hg⟩

/-! ## Programs -/

def fn1 (p : Pat) (e : Exp) : Exp := .fn (.rule p e .rnil)

def rec2 (l m : Nat) (a b : Exp) : Exp := .rcd (.fcons l a (.fcons m b .fnil))

def accepted (k : Nat) (e : Exp) : Bool :=
  match check k e with
  | .ok _ => true
  | .error _ => false

/-- `let fun id x = x val r = ref (id 1) val s = {a = id true, b = fn {a, ...} => !a} in
(fn {a = true, b = f} => f {a = r, c = id r} | {a = _, b = _} => 0) s end` -/
def prog : Exp :=
  .letf 0 (.rule (.var 1) (.var 1) .rnil)
  (.letv 2 (.app (.prim .ref) (.app (.var 0) (.int 1)))
  (.letv 3 (rec2 10 11 (.app (.var 0) (.bool true))
      (fn1 (.as 4 (.rcd (.fcons 10 (.var 5) (.fcons 12 .wild .fnil)) false))
        (.app (.prim .deref) (.var 5))))
  (.app
    (.fn (.rule (.rcd (.fcons 10 (.bool true) (.fcons 11 (.var 6) .fnil)) false)
        (.app (.var 6) (rec2 10 12 (.var 2) (.app (.var 0) (.var 2))))
      (.rule (.rcd (.fcons 10 .wild .fnil) true) (.int 0) .rnil)))
    (.var 3))))

example : accepted 60 prog = true := by decide +kernel

/-- `prog` has the value 1. -/
example : ∃ st, eval 60 .nil prog [] = .val (.int 1) st := ⟨_, rfl⟩

/-- Selection from the wrong record, application of a number, and the polymorphic use of a
reference `let val r = ref (fn x => x) in r := (fn x => x + x); !r true end` go wrong, and are
rejected. -/
def bad1 : Exp := .app (fn1 (.rcd (.fcons 10 (.var 1) .fnil) true) (.var 1))
  (rec2 11 12 (.int 1) (.int 2))

def bad2 : Exp := .app (.int 1) (.int 2)

def bad3 : Exp :=
  .letv 0 (.app (.prim .ref) (fn1 (.var 1) (.var 1)))
  (.letv 2 (.app (.prim .assign) (rec2 1 2 (.var 0)
      (fn1 (.var 1) (.app (.prim .add) (rec2 1 2 (.var 1) (.var 1))))))
    (.app (.app (.prim .deref) (.var 0)) (.bool true)))

example : GoesWrong bad1 ∧ GoesWrong bad2 ∧ GoesWrong bad3 := ⟨⟨20, rfl⟩, ⟨20, rfl⟩, ⟨20, rfl⟩⟩

example : accepted 60 bad1 = false ∧ accepted 60 bad2 = false ∧ accepted 60 bad3 = false := by
  decide +kernel

/-! ## Property C64: legal programs are accepted -/

/-- `let fun f {a, ...} = a fun h x = f (f x) val r = {a = {a = 1, b = 2}, b = 3} in h r end`
-/
def crash : Exp :=
  .letf 0 (.rule (.rcd (.fcons 10 (.var 1) .fnil) true) (.var 1) .rnil)
  (.letf 2 (.rule (.var 3) (.app (.var 0) (.app (.var 0) (.var 3))) .rnil)
  (.letv 5 (rec2 10 11 (rec2 10 11 (.int 1) (.int 2)) (.int 3)) (.app (.var 2) (.var 5))))


def row2 (t u : GTy) : Row := fun l => if l = 10 then some t else if l = 11 then some u else none

def gRow2 (t u : GTy) : GTy := .rcd (row2 t u)

theorem zip_row2 (t u : GTy) : zipLook [10, 11] (.cons t (.cons u .nil)) = row2 t u := by
  funext l; rfl

theorem typ_rec2 {G : Ctx} {a b : Exp} {t u : GTy} (ha : Typ G a t) (hb : Typ G b u) :
    Typ G (rec2 10 11 a b) (gRow2 t u) := by
  have := Typ.rcd G (.fcons 10 a (.fcons 11 b .fnil)) _ (by simp [Exp.labels])
    (.fcons _ _ _ _ _ _ ha (.fcons _ _ _ _ _ _ hb (.fnil _)))
  simp only [Exp.labels, zip_row2] at this
  exact this

/-- `crash` has the type `int`. -/
theorem crash_typ : Typ [] crash gInt := by
  refine .letf _ _ _ _ _ (fun u v => ∃ w, u = gRow2 v w) rfl ⟨_, gInt, gInt, rfl⟩ ?_ ?_
  · rintro u v ⟨w, rfl⟩
    refine .rule _ _ _ _ _ _ _ (.rcd _ _ _ _ _ rfl (by simp [Pat.labels]) (by simp)
      (.fcons _ _ _ _ v _ _ _ rfl (.var _ _ _ rfl) (.fnil _ _))) ?_ (.rnil _ _ _)
    exact .var _ _ _ _ rfl rfl
  · refine .letf _ _ _ _ _ (fun u v => u = gRow2 (gRow2 v gInt) gInt) rfl ⟨_, gInt, rfl⟩ ?_ ?_
    · rintro u v rfl
      refine .rule _ _ _ _ _ _ _ (.var _ _ _ rfl) ?_ (.rnil _ _ _)
      refine .app _ _ _ (gRow2 v gInt) _ (.var _ _ _ _ rfl ⟨_, _, ⟨_, rfl⟩, rfl⟩) ?_
      exact .app _ _ _ (gRow2 (gRow2 v gInt) gInt) _
        (.var _ _ _ _ rfl ⟨_, _, ⟨_, rfl⟩, rfl⟩) (.var _ _ _ _ rfl rfl)
    · refine .letv _ _ _ _ _ (fun w => w = gRow2 (gRow2 gInt gInt) gInt) ⟨_, rfl⟩ ?_ ?_ ?_
      · rintro u rfl
        exact typ_rec2 (typ_rec2 (.int _ _) (.int _ _)) (.int _ _)
      · rintro - u v rfl rfl
        rfl
      · exact .app _ _ _ (gRow2 (gRow2 gInt gInt) gInt) _
          (.var _ _ _ _ rfl ⟨_, _, rfl, rfl⟩) (.var _ _ _ _ rfl rfl)

/-- A legal program that the compiler does not accept: `crash` has the type `int`, and its
elaboration ends with an internal error (with little fuel the model stops before). -/
theorem C64_three_dots_violation : Typ [] crash gInt ∧ check 60 crash = .error .fatal ∧
    ∀ k S, check k crash ≠ .ok S := by
  have h60 : check 60 crash = .error .fatal := by
    have : (match check 60 crash with | .error .fatal => true | _ => false) = true := by
      decide +kernel
    revert this
    generalize check 60 crash = r
    rcases r with (_ | _ | _) | _ <;> simp
  refine ⟨crash_typ, h60, fun k S h => ?_⟩
  rcases Nat.le_total k 60 with hk | hk
  · rcases check_mono hk crash with e | e
    · rw [h] at e
      cases e
    · rw [h60, h] at e
      cases e
  · rcases check_mono hk crash with e | e
    · rw [h60] at e
      cases e
    · rw [h60, h] at e
      cases e

/-- A legal program without `...` is accepted.  (The bound on the depth of recursion that the
model has may be too small; there is no other reason for rejection.)  Missing: programs with
`...`, of which some are not accepted (`C64_three_dots_violation`). -/
theorem C64_legal_accepted_partial (e : Exp) (hl : e.legal .exp = true) (T : GTy)
    (hT : Typ [] e T) :
    ∃ S k0, ∀ k, check k e = .ok S ∨ (k < k0 ∧ check k e = .error .fuel) := by
  obtain ⟨S, ⟨k0, h⟩, -⟩ := check_all hl hT
  refine ⟨S, k0, fun k => ?_⟩
  by_cases hk : k0 ≤ k
  · exact .inl (h k hk)
  · rcases check_mono (show k ≤ k0 by omega) e with h' | h'
    · exact .inr ⟨by omega, h'⟩
    · exact .inl (h' ▸ h k0 (Nat.le_refl _))

/-- The types of a program are exactly the instances of the type that the type checker finds
for it.  Missing: programs with `...`. -/
theorem C64_principal_partial (e : Exp) (hl : e.legal .exp = true) (k : Nat) (S : St)
    (h : check k e = .ok S) (T : GTy) :
    Typ [] e T ↔ ∃ g, Sol S g ∧ (g 0).1 = T := by
  have he : elabExp k e 1 [] (.var 0) ((⟨[], []⟩ : St).fresh 1 false) = .ok S := by
    obtain ⟨S1, h1, h2⟩ := bind_ok h
    split at h2
    · cases h2
      exact h1
    · cases h2
  constructor
  · intro hT
    obtain ⟨S', ⟨k0, h0⟩, hall⟩ := check_all hl hT
    obtain rfl : S = S' := by
      rcases check_mono (show k ≤ max k k0 by omega) e with h' | h'
      · rw [h] at h'
        cases h'
      · rw [h, h0 (max k k0) (by omega)] at h'
        cases h'
        rfl
    exact hall T hT
  · rintro ⟨g, hg, rfl⟩
    exact (C63_accepted_typed k e S he).2 g hg

/-- A program without a type is rejected. -/
theorem C64_illegal_rejected (e : Exp) (h : ∀ T, ¬ Typ [] e T) (k : Nat) (S : St) :
    check k e ≠ .ok S := by
  intro hk
  obtain ⟨T, hT⟩ := check_typ hk
  exact h T hT

/-- `let fun twice f = fn x => f (f x) in {1 = twice (fn x => x + x) 3, 2 = twice twice} end`
-/
def poly : Exp :=
  .letf 0 (.rule (.var 1) (fn1 (.var 2) (.app (.var 1) (.app (.var 1) (.var 2)))) .rnil)
  (rec2 1 2
    (.app (.app (.var 0) (fn1 (.var 1) (.app (.prim .add) (rec2 1 2 (.var 1) (.var 1))))) (.int 3))
    (.app (.var 0) (.var 0)))

example : poly.legal .exp = true ∧ accepted 60 poly = true := by decide +kernel

example : ∃ T, Typ [] poly T := by
  have : accepted 60 poly = true := by decide +kernel
  simp only [accepted] at this
  split at this
  · next S h => exact check_typ h
  · simp at this

end Mosml.Typing
