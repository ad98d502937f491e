import Verif.PM.Find
import Verif.Util
import Mathlib.Logic.Relation
import Mathlib.Data.List.Nodup
import Mathlib.Data.List.Perm.Subperm

/-! # C101: the files of a project are linked in an order in which they can be -/
namespace Mosml.PM
open Relation

/-- all files of a body, as they stand in it -/
def allFiles : Body → List Str
  | .src f b => f :: allFiles b
  | .strsrc f b => f :: allFiles b
  | .locl b1 b2 b3 => allFiles b1 ++ allFiles b2 ++ allFiles b3
  | .null => []

variable (get : Str → Option File)

def importsOf (name : Str) : List Str := ((get name).map (·.1)).getD []
def filesOf (name : Str) : List Str := ((get name).map (fun f => allFiles f.2)).getD []

/-- one project file imports another -/
def Imports (x y : Str) : Prop := y ∈ importsOf get x

theorem findFilesBody_eq (b : Body) (accu : List Str) : findFilesBody b accu = (allFiles b).reverse ++ accu := by
  induction b generalizing accu with
  | src f b ih => rw [findFilesBody, ih]; simp [allFiles]
  | strsrc f b ih => rw [findFilesBody, ih]; simp [allFiles]
  | locl b1 b2 b3 i1 i2 i3 => rw [findFilesBody, i1, i2, i3]; simp [allFiles]
  | null => rfl

/-- every project file in the list comes, from the right, after those that it imports -/
def Closed (l : List Str) : Prop := ∀ a o b, l = a ++ o :: b → ∀ i ∈ importsOf get o, i ∈ b

structure Inv (root : Str) (path : List Str) (s : St) : Prop where
  nodup : s.marks.Nodup
  files : s.accu.reverse = s.marks.reverse.flatMap (filesOf get)
  closed : Closed get s.marks
  apart : ∀ o ∈ s.marks, o ∉ path
  reach : ∀ o ∈ s.marks, ReflTransGen (Imports get) root o

theorem Closed.cons {l : List Str} {o : Str} (h : Closed get l) (ho : ∀ i ∈ importsOf get o, i ∈ l) :
    Closed get (o :: l) := by
  intro a x b e
  cases a with
  | nil => cases e; exact ho
  | cons y a => cases e; exact h a x b rfl

/-- what a visit of a project file gives -/
def VisitOk (root : Str) (path : List Str) (visit : Str → St → Found) (name : Str) : Prop :=
  ∀ s, Inv get root path s → name ∉ s.marks → ∀ s', visit name s = .ok s' →
    Inv get root path ⟨name :: s'.marks, s'.accu⟩ ∧ s.marks ⊆ s'.marks

theorem imports_ok (root : Str) (path : List Str) (visit : Str → St → Found) (names : List Str)
    (hv : ∀ n ∈ names, VisitOk get root path visit n) (s s' : St) (hs : Inv get root path s)
    (h : findFilesImports visit names s = .ok s') :
    Inv get root path s' ∧ s.marks ⊆ s'.marks ∧ ∀ n ∈ names, n ∈ s'.marks := by
  induction names generalizing s with
  | nil => cases h; exact ⟨hs, List.Subset.refl _, by simp⟩
  | cons name rest ih =>
    rw [findFilesImports] at h
    by_cases hm : name ∈ s.marks
    · rw [if_pos hm] at h
      obtain ⟨h1, h2, h3⟩ := ih (fun n hn => hv n (by simp [hn])) s hs h
      refine ⟨h1, h2, ?_⟩
      intro n hn
      rcases List.mem_cons.mp hn with rfl | hn
      · exact h2 hm
      · exact h3 n hn
    · rw [if_neg hm] at h
      cases hr : visit name s with
      | ok t =>
        rw [hr] at h
        obtain ⟨g1, g2⟩ := hv name (by simp) s hs hm t hr
        obtain ⟨h1, h2, h3⟩ := ih (fun n hn => hv n (by simp [hn])) _ g1 h
        refine ⟨h1, fun x hx => h2 (List.mem_cons_of_mem _ (g2 hx)), ?_⟩
        intro n hn
        rcases List.mem_cons.mp hn with rfl | hn
        · exact h2 (by simp)
        · exact h3 n hn
      | cycle _ => rw [hr] at h; cases h
      | unreadable => rw [hr] at h; cases h
      | fuel => rw [hr] at h; cases h

theorem visit_ok (root : Str) (n : Nat) : ∀ (path : List Str) (name : Str),
    ReflTransGen (Imports get) root name → VisitOk get root path (ifindFiles get n path) name := by
  induction n with
  | zero => intro path name _ s _ _ s' h; cases h
  | succ n ih =>
    intro path name hroot s hs hm s' h
    rw [ifindFiles] at h
    by_cases hp : name ∈ path
    · rw [if_pos hp] at h; cases h
    · rw [if_neg hp] at h
      cases hg : get name with
      | none => rw [hg] at h; cases h
      | some f =>
        obtain ⟨imports, body⟩ := f
        rw [hg] at h
        simp only [] at h
        have himp : importsOf get name = imports := by rw [importsOf, hg]; rfl
        have hfil : filesOf get name = allFiles body := by rw [filesOf, hg]; rfl
        have hs1 : Inv get root (name :: path) s := by
          refine ⟨hs.nodup, hs.files, hs.closed, ?_, hs.reach⟩
          intro o ho hc
          rcases List.mem_cons.mp hc with rfl | hc
          · exact hm ho
          · exact hs.apart o ho hc
        cases hr : findFilesImports (ifindFiles get n (name :: path)) imports s with
        | ok t =>
          rw [hr] at h
          cases h
          obtain ⟨h1, h2, h3⟩ := imports_ok get root (name :: path) _ imports
            (fun i hi => ih (name :: path) i (hroot.tail (by rw [Imports, himp]; exact hi))) s t hs1 hr
          refine ⟨⟨?_, ?_, ?_, ?_, ?_⟩, h2⟩
          · exact List.nodup_cons.mpr ⟨fun hc => h1.apart name hc (by simp), h1.nodup⟩
          · show (findFilesBody body t.accu).reverse = (name :: t.marks).reverse.flatMap _
            rw [findFilesBody_eq, List.reverse_append, List.reverse_reverse, h1.files, List.reverse_cons,
              List.flatMap_append, List.flatMap_singleton, hfil]
          · exact Closed.cons get h1.closed (by rw [himp]; exact h3)
          · intro o ho hc
            rcases List.mem_cons.mp ho with rfl | ho
            · exact hp hc
            · exact h1.apart o ho (by simp [hc])
          · intro o ho
            rcases List.mem_cons.mp ho with rfl | ho
            · exact hroot
            · exact h1.reach o ho
        | cycle _ => rw [hr] at h; cases h
        | unreadable => rw [hr] at h; cases h
        | fuel => rw [hr] at h; cases h

theorem closed_trans {l : List Str} (h : Closed get l) {x y : Str} (hxy : TransGen (Imports get) x y) :
    ∀ a b, l = a ++ x :: b → y ∈ b := by
  induction hxy with
  | single hy => intro a b e; exact h a x b e _ hy
  | tail _ hz ih =>
    intro a b e
    obtain ⟨c, d, hcd⟩ := List.append_of_mem (ih a b e)
    have := h (a ++ x :: c) _ d (by rw [e, hcd]; simp) _ hz
    rw [hcd]
    simp [this]

/-- If the files are found, they are those of a sequence of project files that contains each project file that is
imported, directly or not, exactly once and no others, each of them after all those that it imports, and the project
file asked for at the end; there are then no cycles. -/
theorem C101_order (n : Nat) (root : Str) (s : St) (h : findFiles get n root = .ok s) :
    ∃ order : List Str, s.accu = order.flatMap (filesOf get) ∧ order.Nodup ∧
      (∃ before, order = before ++ [root]) ∧
      (∀ a o b, order = a ++ o :: b → ∀ i ∈ importsOf get o, i ∈ a) ∧
      (∀ o, o ∈ order ↔ ReflTransGen (Imports get) root o) ∧
      ∀ o, ReflTransGen (Imports get) root o → ¬ TransGen (Imports get) o o := by
  rw [findFiles] at h
  cases hr : ifindFiles get n [] root ⟨[], []⟩ with
  | ok t =>
    rw [hr] at h
    cases h
    have h0 : Inv get root [] ⟨[], []⟩ :=
      ⟨List.nodup_nil, rfl, fun a o b e => by simp at e, by simp, by simp⟩
    obtain ⟨h1, -⟩ := visit_ok get root n [] root .refl ⟨[], []⟩ h0 (by simp) t hr
    have hmem : ∀ o, o ∈ (root :: t.marks) ↔ ReflTransGen (Imports get) root o := by
      intro o
      refine ⟨fun ho => h1.reach o ho, ?_⟩
      intro ho
      rcases reflTransGen_iff_eq_or_transGen.mp ho with rfl | ho
      · simp
      · exact List.mem_cons_of_mem _ (closed_trans get h1.closed ho [] t.marks rfl)
    refine ⟨(root :: t.marks).reverse, h1.files, List.nodup_reverse.mpr h1.nodup, ⟨t.marks.reverse, by simp⟩, ?_, ?_, ?_⟩
    · intro a o b e i hi
      have e' : root :: t.marks = b.reverse ++ o :: a.reverse := by
        have := congrArg List.reverse e
        rw [List.reverse_reverse] at this
        rw [this]; simp
      exact List.mem_reverse.mp (h1.closed _ _ _ e' i hi)
    · intro o
      rw [List.mem_reverse]
      exact hmem o
    · intro o ho hc
      obtain ⟨a, b, e⟩ := List.append_of_mem ((hmem o).mpr ho)
      have hb := closed_trans get h1.closed hc a b e
      have hn : (a ++ o :: b).Nodup := e ▸ h1.nodup
      exact (List.nodup_cons.mp (List.nodup_append.mp hn).2.1).1 hb
  | cycle _ => rw [hr] at h; cases h
  | unreadable => rw [hr] at h; cases h
  | fuel => rw [hr] at h; cases h

/-! ## failures -/

/-- a property of failures passes from the visits to the whole list -/
theorem imports_fail (visit : Str → St → Found) (P : Found → Prop) (hok : ∀ s, P (.ok s)) (names : List Str)
    (hv : ∀ n ∈ names, ∀ s, P (visit n s)) (s : St) : P (findFilesImports visit names s) := by
  induction names generalizing s with
  | nil => exact hok s
  | cons name rest ih =>
    rw [findFilesImports]
    split
    · exact ih (fun n hn => hv n (by simp [hn])) s
    · have := hv name (by simp) s
      cases hr : visit name s with
      | ok t => exact ih (fun n hn => hv n (by simp [hn])) _
      | cycle _ => rw [hr] at this; exact this
      | unreadable => rw [hr] at this; exact this
      | fuel => rw [hr] at this; exact this

/-- a failure is justified -/
def Justified (root : Str) : Found → Prop
  | .cycle names => ∃ x rest, names = x :: rest ∧ ReflTransGen (Imports get) root x ∧ TransGen (Imports get) x x ∧ x ∈ rest
  | .unreadable => ∃ x, ReflTransGen (Imports get) root x ∧ get x = none
  | _ => True

theorem visit_justified (root : Str) (n : Nat) : ∀ (path : List Str) (name : Str),
    ReflTransGen (Imports get) root name → (∀ x ∈ path, TransGen (Imports get) x name) → ∀ s,
    Justified get root (ifindFiles get n path name s) := by
  induction n with
  | zero => intro path name _ _ s; trivial
  | succ n ih =>
    intro path name hroot hpath s
    rw [ifindFiles]
    split
    · rename_i hp
      exact ⟨name, path, rfl, hroot, hpath name hp, hp⟩
    · cases hg : get name with
      | none => exact ⟨name, hroot, hg⟩
      | some f =>
        obtain ⟨imports, body⟩ := f
        have himp : importsOf get name = imports := by rw [importsOf, hg]; rfl
        have key := imports_fail (ifindFiles get n (name :: path)) (Justified get root) (fun _ => trivial) imports
          (fun i hi s => by
            have hi' : Imports get name i := by rw [Imports, himp]; exact hi
            refine ih (name :: path) i (hroot.tail hi') ?_ s
            intro x hx
            rcases List.mem_cons.mp hx with rfl | hx
            · exact .single hi'
            · exact (hpath x hx).tail hi') s
        simp only []
        cases hr : findFilesImports (ifindFiles get n (name :: path)) imports s with
        | ok t => trivial
        | cycle _ => rw [hr] at key; exact key
        | unreadable => rw [hr] at key; exact key
        | fuel => trivial

theorem visit_fuel (L : List Str) (hL : ∀ x ∈ L, ∀ y, Imports get x y → y ∈ L) (n : Nat) :
    ∀ (path : List Str) (name : Str), path.Nodup → path ⊆ L → name ∈ L → L.length < n + path.length → ∀ s,
    ifindFiles get n path name s ≠ .fuel := by
  induction n with
  | zero =>
    intro path name hn hs _ hlen s
    have := (hn.subperm hs).length_le
    omega
  | succ n ih =>
    intro path name hn hs hname hlen s
    rw [ifindFiles]
    split
    · intro h; cases h
    · rename_i hp
      cases hg : get name with
      | none => intro h; cases h
      | some f =>
        obtain ⟨imports, body⟩ := f
        have himp : importsOf get name = imports := by rw [importsOf, hg]; rfl
        have key := imports_fail (ifindFiles get n (name :: path)) (· ≠ .fuel) (fun _ h => by cases h) imports
          (fun i hi s => ih (name :: path) i (List.nodup_cons.mpr ⟨hp, hn⟩)
            (List.cons_subset.mpr ⟨hname, hs⟩) (hL name hname i (by rw [Imports, himp]; exact hi))
            (by rw [List.length_cons]; omega) s) s
        simp only []
        cases hr : findFilesImports (ifindFiles get n (name :: path)) imports s with
        | ok t => intro h; cases h
        | cycle _ => intro h; cases h
        | unreadable => intro h; cases h
        | fuel => exact absurd hr key

/-- If a cycle is reported, there is one among the imported project files, through the first one named, which is named
again; a project file is reported as unreadable only if it is, and is imported; and for finitely many project
files one of the three outcomes is reached. -/
theorem C101_failures (root : Str) :
    (∀ n names, findFiles get n root = .cycle names →
      ∃ x rest, names = x :: rest ∧ ReflTransGen (Imports get) root x ∧ TransGen (Imports get) x x ∧ x ∈ rest) ∧
    (∀ n, findFiles get n root = .unreadable → ∃ x, ReflTransGen (Imports get) root x ∧ get x = none) ∧
    (∀ L : List Str, root ∈ L → (∀ x ∈ L, ∀ y, Imports get x y → y ∈ L) →
      findFiles get (L.length + 1) root ≠ .fuel) := by
  have hj : ∀ n, Justified get root (findFiles get n root) := by
    intro n
    have := visit_justified get root n [] root .refl (by simp) ⟨[], []⟩
    rw [findFiles]
    cases hr : ifindFiles get n [] root ⟨[], []⟩ with
    | ok t => trivial
    | cycle _ => rw [hr] at this; exact this
    | unreadable => rw [hr] at this; exact this
    | fuel => trivial
  refine ⟨?_, ?_, ?_⟩
  · intro n names h
    have := hj n
    rw [h] at this
    exact this
  · intro n h
    have := hj n
    rw [h] at this
    exact this
  · intro L hroot hL
    have := visit_fuel get L hL (L.length + 1) [] root List.nodup_nil (by simp) hroot (by simp) ⟨[], []⟩
    rw [findFiles]
    cases hr : ifindFiles get (L.length + 1) [] root ⟨[], []⟩ with
    | ok t => intro h; cases h
    | cycle _ => intro h; cases h
    | unreadable => intro h; cases h
    | fuel => exact absurd hr this

/-- a diamond of project files, and a cycle -/
def diamond (x : Str) : Option File :=
  if x = [0] then some ([[1], [2]], .src [10] .null)
  else if x = [1] then some ([[3]], .src [11] .null)
  else if x = [2] then some ([[3]], .locl (.src [12] .null) (.src [13] .null) .null)
  else if x = [3] then some ([], .src [14] .null)
  else if x = [4] then some ([[5]], .null)
  else if x = [5] then some ([[4]], .null)
  else none

example : findFiles diamond 5 [0] = .ok ⟨[[2], [1], [3]], [[14], [11], [12], [13], [10]]⟩ ∧
    findFiles diamond 5 [4] = .cycle [[4], [5], [4]] ∧ findFiles diamond 5 [6] = .unreadable := ⟨rfl, rfl, rfl⟩

end Mosml.PM
