import Verif.Primdec.Model
import Verif.Util

/-! # C102: primitive declarations mean the primitive that they name -/
namespace Mosml.Primdec
open Mosml.Num (chars)

theorem lt_irrefl (x : Str) : lt x x = false := by
  induction x with
  | nil => rfl
  | cons a x ih => rw [lt, if_neg (Nat.lt_irrefl a), if_neg (Nat.lt_irrefl a), ih]

theorem lt_asymm (x y : Str) (h : lt x y = true) : lt y x = false := by
  induction x generalizing y with
  | nil => cases y <;> rfl
  | cons a x ih =>
    cases y with
    | nil => cases h
    | cons b y =>
      rw [lt] at h ⊢
      by_cases h1 : a < b
      · rw [if_neg (by omega), if_pos h1]
      · rw [if_neg h1] at h
        by_cases h2 : b < a
        · rw [if_pos h2] at h; cases h
        · rw [if_neg h2] at h
          rw [if_neg h2, if_neg h1]
          exact ih y h

theorem lt_total (x y : Str) (h1 : lt x y = false) (h2 : lt y x = false) : x = y := by
  induction x generalizing y with
  | nil => cases y with
    | nil => rfl
    | cons _ _ => cases h1
  | cons a x ih =>
    cases y with
    | nil => cases h2
    | cons b y =>
      rw [lt] at h1 h2
      by_cases h3 : a < b
      · rw [if_pos h3] at h1; cases h1
      · by_cases h4 : b < a
        · rw [if_pos h4] at h2; cases h2
        · rw [if_neg h3, if_neg h4] at h1
          rw [if_neg h4, if_neg h3] at h2
          rw [show a = b by omega, ih y h1 h2]

/-- the keys are in increasing order -/
def Sorted {α : Type} (vec : List (Str × α)) : Prop := vec.Pairwise (fun x y => lt x.1 y.1 = true)

theorem search_sound {α : Type} (name : Str) (vec : List (Str × α)) (n : Nat) (a b : Int) (v : α)
    (h : search name vec n a b = some v) : (name, v) ∈ vec := by
  induction n generalizing a b with
  | zero => cases h
  | succ n ih =>
    rw [search] at h
    simp only [] at h
    split at h
    · cases h
    · split at h
      · cases h
      · split at h
        · cases h
        · rename_i key w hg
          split at h
          · exact ih _ _ h
          · split at h
            · exact ih _ _ h
            · cases h
              rename_i h1 h2
              have : name = key := lt_total name key (by simpa using h1) (by simpa using h2)
              rw [this]
              exact List.mem_of_getElem? hg

theorem search_complete {α : Type} (name : Str) (vec : List (Str × α)) (hs : Sorted vec) (v : α) (j : Nat)
    (hj : vec[j]? = some (name, v)) (n : Nat) (a b : Int) (ha : 0 ≤ a) (hb : b < vec.length) (h1 : a ≤ j) (h2 : (j : Int) ≤ b)
    (hn : b - a < n) : search name vec n a b = some v := by
  induction n generalizing a b with
  | zero => omega
  | succ n ih =>
    rw [search]
    simp only []
    rw [if_neg (by omega), if_neg (by omega)]
    have hlt : ((a + b) / 2).toNat < vec.length := by omega
    have hi : (((a + b) / 2).toNat : Int) = (a + b) / 2 := by omega
    generalize hk : ((a + b) / 2).toNat = i at *
    rw [← hi]
    obtain ⟨hjl, hje⟩ := List.getElem?_eq_some_iff.mp hj
    rw [List.getElem?_eq_getElem hlt]
    have hcmp : ∀ (x y : Nat) (hx : x < vec.length) (hy : y < vec.length), x < y → lt vec[x].1 vec[y].1 = true :=
      fun x y hx hy hxy => List.pairwise_iff_getElem.mp hs x y hx hy hxy
    have hname : vec[j].1 = name := by rw [hje]
    simp only []
    rcases Nat.lt_trichotomy i j with h | h | h
    · have c := hcmp i j hlt hjl h
      rw [hname] at c
      rw [if_neg (by rw [lt_asymm _ _ c]; simp), if_pos c]
      exact ih _ _ (by omega) hb (by omega) h2 (by omega)
    · subst h
      rw [hname, lt_irrefl]
      simp [hje]
    · have c := hcmp j i hjl hlt h
      rw [hname] at c
      rw [if_pos c]
      exact ih _ _ ha (by omega) h1 (by omega) (by omega)

/-- In a table in increasing order, binlookup finds exactly the entries. -/
theorem C102_binlookup {α : Type} (vec : List (Str × α)) (hs : Sorted vec) (name : Str) (v : α) :
    binlookup name vec = some v ↔ (name, v) ∈ vec := by
  constructor
  · exact search_sound name vec _ _ _ v
  · intro h
    obtain ⟨j, hj⟩ := List.mem_iff_getElem?.mp h
    obtain ⟨hjl, -⟩ := List.getElem?_eq_some_iff.mp hj
    exact search_complete name vec hs v j hj _ _ _ le_rfl (by omega) (by omega) (by omega) (by omega)

/-- The table is in increasing order, as its comment demands. -/
theorem C102_sorted : Sorted primitiveNames := by
  unfold Sorted
  decide +kernel

/-- A declaration of arity 0 names a variable of General; one of another arity means the primitive of the table with
its name, and if there is none, the C function with its name. -/
theorem C102_findPrimitive (arity : Int) (name : Str) :
    findPrimitive 0 name = .MLPgv (chars "General") name ∧
    (arity ≠ 0 → ∀ p, findPrimitive arity name = .MLPprim arity p ↔ (name, p) ∈ primitiveNames) ∧
    (arity ≠ 0 → (findPrimitive arity name = .MLPccall arity name ↔ ∀ p, (name, p) ∉ primitiveNames)) := by
  have hb := C102_binlookup primitiveNames C102_sorted name
  refine ⟨rfl, ?_, ?_⟩
  · intro ha p
    rw [← hb p, findPrimitive, if_neg ha]
    cases binlookup name primitiveNames <;> simp
  · intro ha
    rw [findPrimitive, if_neg ha]
    cases h : binlookup name primitiveNames with
    | some q => simp only [reduceCtorEq, false_iff, not_forall, not_not]; exact ⟨q, (hb q).mp h⟩
    | none =>
      simp only [true_iff]
      intro p hp
      have := (hb p).mpr hp
      rw [h] at this
      cases this

/-- the symbols of the comparisons and the types that they are for -/
def comparisons : List (Str × PrimTest) :=
  [(chars "=", .PTeq), (chars "<>", .PTnoteq), (chars "<", .PTlt), (chars "<=", .PTle), (chars ">", .PTgt),
    (chars ">=", .PTge)]

/-- The comparisons of integers, reals and strings are those that their names say, and `field`, `setfield` followed by a number
up to 12 (and no greater one) are the accesses to the field with that number. -/
theorem C102_names :
    (∀ c ∈ comparisons, findPrimitive 2 (c.1 ++ chars "int") = .MLPprim 2 (.Ptest (.Pint_test c.2)) ∧
      findPrimitive 2 (c.1 ++ chars "real") = .MLPprim 2 (.Ptest (.Pfloat_test c.2)) ∧
      findPrimitive 2 (c.1 ++ chars "string") = .MLPprim 2 (.Ptest (.Pstring_test c.2))) ∧
    (∀ n, n ≤ 12 → findPrimitive 1 (chars "field" ++ chars (toString n)) = .MLPprim 1 (.Pfield n) ∧
      findPrimitive 2 (chars "setfield" ++ chars (toString n)) = .MLPprim 2 (.Psetfield n)) ∧
    (∀ x ∈ primitiveNames, ∀ n, (x.2 = .Pfield n ∨ x.2 = .Psetfield n) → n ≤ 12) := by
  refine ⟨by decide +kernel, ?_, ?_⟩
  · intro n hn
    have : ∀ n : Fin 13, findPrimitive 1 (chars "field" ++ chars (toString n.val)) = .MLPprim 1 (.Pfield n.val) ∧
      findPrimitive 2 (chars "setfield" ++ chars (toString n.val)) = .MLPprim 2 (.Psetfield n.val) := by decide +kernel
    exact this ⟨n, by omega⟩
  · intro x hx n h
    have : ∀ x ∈ primitiveNames, (match x.2 with | .Pfield n => decide (n ≤ 12) | .Psetfield n => decide (n ≤ 12) | _ => true) = true := by
      decide +kernel
    have := this x hx
    rcases h with h | h <;> rw [h] at this <;> simpa using this

example : findPrimitive 1 (chars "sml_abs_int") = .MLPccall 1 (chars "sml_abs_int") ∧
    findPrimitive 2 (chars "+int") = .MLPprim 2 .Psmladdint ∧ findPrimitive 1 (chars "~real") = .MLPprim 1 (.Pfloatprim .Psmlnegfloat) := by
  decide +kernel

end Mosml.Primdec
