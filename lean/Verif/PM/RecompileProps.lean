import Verif.PM.Recompile
import Verif.Util

/-! # C100: what is compiled again -/
namespace Mosml.PM

theorem contextTime_ge (uis : List Nat) : ∀ u ∈ uis, u ≤ contextTime uis := by
  have h : ∀ (l : List Nat) (a : Nat), a ≤ l.foldl maxTime a ∧ ∀ u ∈ l, u ≤ l.foldl maxTime a := by
    intro l
    induction l with
    | nil => intro a; exact ⟨le_rfl, by simp⟩
    | cons x l ih =>
      intro a
      obtain ⟨h1, h2⟩ := ih (maxTime a x)
      have h3 : a ≤ maxTime a x ∧ x ≤ maxTime a x := by
        unfold maxTime
        split <;> omega
      rw [List.foldl_cons]
      refine ⟨by omega, ?_⟩
      intro u hu
      rcases List.mem_cons.mp hu with rfl | hu
      · omega
      · exact h2 u hu
  exact (h uis 0).2

theorem contextTime_mem (uis : List Nat) : contextTime uis = 0 ∨ contextTime uis ∈ uis := by
  have h : ∀ (l : List Nat) (a : Nat), l.foldl maxTime a = a ∨ l.foldl maxTime a ∈ l := by
    intro l
    induction l with
    | nil => intro a; exact Or.inl rfl
    | cons x l ih =>
      intro a
      rw [List.foldl_cons]
      rcases ih (maxTime a x) with h | h
      · rw [h]
        unfold maxTime
        split
        · exact Or.inl rfl
        · exact Or.inr (by simp)
      · exact Or.inr (List.mem_cons_of_mem _ h)
  exact h uis 0

/-- the interface is up to date: it exists, and neither what it is made from nor any interface that the file sees nor the
project file is newer -/
def InterfaceFresh (uis : List Nat) (t : Times) : Prop :=
  ∃ ui, t.ui = some ui ∧ (∀ u ∈ uis, u ≤ ui) ∧ t.sig.getD t.sml ≤ ui ∧ t.pm ≤ ui

/-- the code exists and neither the source nor the project file is newer -/
def CodeFresh (t : Times) : Prop := ∃ uo, t.uo = some uo ∧ t.sml ≤ uo ∧ t.pm ≤ uo

theorem context_le (uis : List Nat) (n : Nat) : contextTime uis ≤ n ↔ ∀ u ∈ uis, u ≤ n := by
  constructor
  · intro h u hu
    exact le_trans (contextTime_ge uis u hu) h
  · intro h
    rcases contextTime_mem uis with e | e
    · omega
    · exact h _ e

/-- Everything is reused exactly if the interface and the code are up to date; only the code is compiled again
exactly if there is a signature file, the interface is up to date, the project file is not newer than the code if that exists,
and the source is newer than the code or there is no code; otherwise everything is compiled, the signature
file first. What is missing: that the code is not older than the interface (`C100_stale_violation`). -/
theorem C100_recompile_partial (uis : List Nat) (t : Times) :
    (recompile (contextTime uis) t = [] ↔ InterfaceFresh uis t ∧ CodeFresh t) ∧
    ((∃ s, t.sig = some s) → (recompile (contextTime uis) t = [.sml] ↔
      InterfaceFresh uis t ∧ ∀ uo, t.uo = some uo → t.pm ≤ uo ∧ uo < t.sml)) ∧
    ((∃ s, t.sig = some s) → recompile (contextTime uis) t ∈ [[], [.sml], [.sig, .sml]]) ∧
    (t.sig = none → recompile (contextTime uis) t ∈ [[], [.sml]]) := by
  obtain ⟨sml, sig, ui, uo, pm⟩ := t
  have hc := fun n => context_le uis n
  generalize contextTime uis = d at *
  simp only [InterfaceFresh, CodeFresh, ← hc]
  cases sig <;> cases ui <;> cases uo <;>
    simp [recompile, dirty, isNewer, isNewer2] <;>
    (try split) <;> (try split) <;> (try simp) <;> (try omega)

example : recompile (contextTime [3, 4]) ⟨2, some 1, some 5, some 6, 1⟩ = [] ∧
    recompile (contextTime [3, 4]) ⟨7, some 1, some 5, some 6, 1⟩ = [.sml] ∧
    recompile (contextTime [3, 8]) ⟨2, some 1, some 5, some 6, 1⟩ = [.sig, .sml] ∧
    recompile (contextTime []) ⟨2, none, some 5, none, 1⟩ = [.sml] := by decide

/-- If the signature file was changed and compiled, but the source then failed to compile, the next attempt reuses the
old code although the signature file, the new interface and an interface that the file sees are newer than it:
for all times in which the code is older than the signature file, but not than the source and the project file. -/
theorem C100_stale_violation (uis : List Nat) (sml s ui uo pm : Nat) (h1 : sml ≤ uo) (h2 : pm ≤ uo) (h3 : uo < s)
    (h4 : s ≤ ui) (h5 : ∀ u ∈ uis, u ≤ ui) :
    uo < s ∧ uo < ui ∧ recompile (contextTime uis) ⟨sml, some s, some ui, some uo, pm⟩ = [] := by
  refine ⟨h3, by omega, ?_⟩
  rw [(C100_recompile_partial uis _).1]
  exact ⟨⟨ui, rfl, h5, h4, by show pm ≤ ui; omega⟩, ⟨uo, rfl, h1, h2⟩⟩

example : recompile (contextTime [4]) ⟨2, some 5, some 6, some 3, 1⟩ = [] := by decide

end Mosml.PM
