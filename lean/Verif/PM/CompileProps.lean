import Verif.PM.Compile
import Verif.Util

/-! # C99: what the files of a project see -/
namespace Mosml.PM

/-- what a body declares for what comes after it: the first part of a local declaration is hidden -/
def exports : Body → List Str
  | .src f b => f :: exports b
  | .strsrc f b => f :: exports b
  | .locl _ b2 b3 => exports b2 ++ exports b3
  | .null => []

/-- the files of a body with what each of them sees, where `env` is seen before -/
def sees (env : List Str) : Body → List (Str × List Str)
  | .src f b => (f, env) :: sees (env ++ [f]) b
  | .strsrc f b => (f, env) :: sees (env ++ [f]) b
  | .locl b1 b2 b3 => sees env b1 ++ sees (env ++ exports b1) b2 ++ sees (env ++ exports b2) b3
  | .null => []

/-- no local declarations -/
def Plain : Body → Prop
  | .src _ b => Plain b
  | .strsrc _ b => Plain b
  | .locl _ _ _ => False
  | .null => True

/-- local declarations are not nested: there is none between `local` and `end` -/
def Shallow : Body → Prop
  | .src _ b => Shallow b
  | .strsrc _ b => Shallow b
  | .locl b1 b2 b3 => Plain b1 ∧ Plain b2 ∧ Shallow b3
  | .null => True

theorem plain_run (b : Body) (h : Plain b) (t : List Str) (c : Ctx) :
    compileBody b (t :: c) = (sees (t :: c).flatten.reverse b, ((exports b).reverse ++ t) :: c) := by
  induction b generalizing t with
  | null => rfl
  | locl => exact absurd h id
  | src f b ih => rw [compileBody, addUI, ih h]; simp [sees, exports]
  | strsrc f b ih => rw [compileBody, addUI, ih h]; simp [sees, exports]

theorem shallow_run (b : Body) (h : Shallow b) (t : List Str) (c : Ctx) :
    (compileBody b (t :: c)).1 = sees (t :: c).flatten.reverse b := by
  induction b generalizing t c with
  | null => rfl
  | src f b ih => rw [compileBody, addUI]; simp only [ih h]; simp [sees]
  | strsrc f b ih => rw [compileBody, addUI]; simp only [ih h]; simp [sees]
  | locl b1 b2 b3 _ _ ih =>
    obtain ⟨h1, h2, h3⟩ := h
    rw [compileBody]
    simp only [scope, plain_run b1 h1, plain_run b2 h2, dropLocal, ih h3]
    simp [sees]

theorem imports_flat (imps : List (List Str)) :
    compileImports (imps.map List.reverse) = (imps.map List.reverse).reverse ++ [[]] := by
  have : ∀ (l : List (List Str)) (c : Ctx), l.foldl (fun c fs => fs :: c) c = l.reverse ++ c := by
    intro l
    induction l with
    | nil => intro c; rfl
    | cons x l ih => intro c; rw [List.foldl_cons, ih]; simp
  exact this _ _

theorem imports_env (imps : List (List Str)) :
    (([] : List Str) :: compileImports (imps.map List.reverse)).flatten.reverse = imps.flatten := by
  rw [imports_flat]
  have : ∀ l : List (List Str), (l.map List.reverse).reverse.flatten.reverse = l.flatten := by
    intro l
    induction l with
    | nil => rfl
    | cons x l ih => simp only [List.map_cons, List.reverse_cons, List.flatten_append, List.reverse_append, ih]; simp
  simp [this] at *
  try exact this imps

/-- Where local declarations are not nested, each file sees the imported files and those declared before it that are
not hidden, in this order. What is missing: nested local declarations (`C99_nested_violation`). -/
theorem C99_sees_partial (imps : List (List Str)) (b : Body) (h : Shallow b) :
    (compilePM (imps.map List.reverse) b).1 = sees imps.flatten b := by
  rw [compilePM, scope]
  simp only [shallow_run b h, imports_env]

/-- A project file without local declarations, or of a single one at its beginning, gives to those that import it what it
declares. What is missing: files before a local declaration (`C99_export_violation`). -/
theorem C99_exports_partial (imps : List (List Str)) (b b1 b2 b3 : Body) (h : Plain b) (h1 : Plain b1)
    (h2 : Plain b2) (h3 : Plain b3) :
    (compilePM imps b).2 = (exports b).reverse ∧
    (compilePM imps (.locl b1 b2 b3)).2 = (exports (.locl b1 b2 b3)).reverse := by
  constructor
  · rw [compilePM, scope, plain_run b h]
    simp [dropImports]
  · rw [compilePM, compileBody]
    simp only [scope, plain_run b1 h1, plain_run b2 h2, dropLocal, plain_run b3 h3]
    simp [dropImports, exports]

example : Shallow (.src [65] (.locl (.src [66] .null) (.strsrc [67] .null) (.src [68] .null))) ∧
    (compilePM [[[73]]] (.src [65] (.locl (.src [66] .null) (.strsrc [67] .null) (.src [68] .null)))).1 =
      [([65], [[73]]), ([66], [[73], [65]]), ([67], [[73], [65], [66]]), ([68], [[73], [65], [67]])] :=
  ⟨⟨trivial, trivial, trivial⟩, by decide⟩

/-- Every file that stands before a local declaration is lost to those that import the project file: with
`f local b1 in b2 end b3` they get only what b2 and b3 declare. -/
theorem C99_export_violation (imps : List (List Str)) (f : Str) (b1 b2 b3 : Body) (h1 : Plain b1) (h2 : Plain b2)
    (h3 : Plain b3) :
    exports (.src f (.locl b1 b2 b3)) = f :: (exports b2 ++ exports b3) ∧
    (compilePM imps (.src f (.locl b1 b2 b3))).2 = (exports b2 ++ exports b3).reverse := by
  refine ⟨rfl, ?_⟩
  rw [compilePM, compileBody, compileBody]
  simp only [scope, addUI, plain_run b1 h1, plain_run b2 h2, dropLocal, plain_run b3 h3]
  simp [dropImports]

/-- Nested local declarations: in `local a local in end in end d` the hidden file a is seen by d; in
`local a in b local in end end d`, d sees a, which is hidden, and does not see b, which is not. -/
theorem C99_nested_violation (a b d : Str) :
    (compilePM [] (.locl (.src a (.locl .null .null .null)) .null (.src d .null))).1 = [(a, []), (d, [a])] ∧
    sees [] (.locl (.src a (.locl .null .null .null)) .null (.src d .null)) = [(a, []), (d, [])] ∧
    (compilePM [] (.locl (.src a .null) (.src b (.locl .null .null .null)) (.src d .null))).1 =
      [(a, []), (b, [a]), (d, [a])] ∧
    sees [] (.locl (.src a .null) (.src b (.locl .null .null .null)) (.src d .null)) =
      [(a, []), (b, [a]), (d, [b])] :=
  ⟨rfl, rfl, rfl, rfl⟩

end Mosml.PM
