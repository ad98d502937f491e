import Verif.Proc.Model
import Verif.Files.Lemmas

/-!
C91: Process, CommandLine and Mosml.listDir: exit actions, completion codes, arguments.
-/
namespace Mosml.Proc
open Mosml.Files (Name visible)

/-- a body that only has effects that can be observed -/
def Plain (effects : Nat → List Nat) (body : Nat → List Cmd) (a : Nat) : Prop :=
  body a = (effects a).map .emit

theorem exec_emits (body : Nat → List Cmd) (es : List Nat) (n : Nat) (s : St) (h : es.length < n) :
    exec body n (es.map .emit) s = (.returned, { s with out := s.out ++ es }) := by
  induction es generalizing n s with
  | nil =>
    cases n with
    | zero => simp at h
    | succ n => simp [exec]
  | cons e es ih =>
    cases n with
    | zero => simp at h
    | succ n =>
      rw [List.map_cons, exec, ih n _ (by simp at h; omega)]
      simp

theorem appTasks_plain (effects : Nat → List Nat) (body : Nat → List Cmd) (l : List Nat)
    (h : ∀ a ∈ l, Plain effects body a) (st : Int) (n : Nat) (s : St)
    (hn : l.length + (l.flatMap effects).length + 1 < n) :
    appTasks body n l st s = (.ended st, { s with out := s.out ++ l.flatMap effects }) := by
  induction l generalizing n s with
  | nil =>
    cases n with
    | zero => simp at hn
    | succ n => simp [appTasks]
  | cons a l ih =>
    cases n with
    | zero => simp at hn
    | succ n =>
      simp only [List.flatMap_cons, List.length_cons, List.length_append] at hn
      rw [appTasks, h a (by simp), exec_emits body _ n s (by omega)]
      simp only []
      rw [ih (fun b hb => h b (List.mem_cons_of_mem _ hb)) n _ (by omega)]
      simp

/-- `exit` executes all registered actions in the reverse order of their registration, each once, and then
ends the process with the given status, provided that the actions neither raise exceptions nor call
Process functions themselves. -/
theorem C91_exit_partial (effects : Nat → List Nat) (body : Nat → List Cmd) (regs : List Nat)
    (h : ∀ a ∈ regs, Plain effects body a) (st : Int) :
    ∃ n0, ∀ n ≥ n0, ∃ s, exit body n st (regs.foldl (fun s a => atExit a s) ⟨[], []⟩) = (.ended st, s) ∧
      s.out = regs.reverse.flatMap effects := by
  have hs : ∀ (l : List Nat) (s : St),
      l.foldl (fun s a => atExit a s) s = ⟨l.reverse ++ s.tasks, s.out⟩ := by
    intro l
    induction l with
    | nil => intro s; simp
    | cons a l ih => intro s; rw [List.foldl_cons, ih]; simp [atExit]
  rw [hs]
  refine ⟨regs.reverse.length + (regs.reverse.flatMap effects).length + 3, ?_⟩
  intro n hn
  cases n with
  | zero => omega
  | succ n =>
    have key := appTasks_plain effects body regs.reverse (fun a ha => h a (List.mem_reverse.mp ha)) st n
      ⟨regs.reverse ++ [], []⟩ (by omega)
    refine ⟨⟨regs.reverse ++ [], [] ++ regs.reverse.flatMap effects⟩, ?_, by simp⟩
    simp only [List.append_nil] at key ⊢
    rw [exit]
    exact key

example : ∀ a ∈ [1, 2, 3], Plain (fun a => [a, 10 * a]) (fun a => [.emit a, .emit (10 * a)]) a := by
  intro a _; rfl

/-- An exception in an action (here the one registered last) leaves the process alive and the other actions
undone, whatever they are. -/
theorem C91_raise_violation (body : Nat → List Cmd) (a : Nat) (h : body a = [.raise]) (others : List Nat)
    (st : Int) (n : Nat) (out : List Nat) :
    exit body (n + 3) st ⟨a :: others, out⟩ = (.raised, ⟨a :: others, out⟩) := by
  simp only [exit, appTasks, h, exec]

/-- An action that calls `exit` makes the program run forever. -/
theorem C91_nested_exit_violation (body : Nat → List Cmd) (a : Nat) (st' : Int) (h : body a = [.exit st'])
    (others : List Nat) (st : Int) (n : Nat) (out : List Nat) :
    exit body n st ⟨a :: others, out⟩ = (.unfinished, ⟨a :: others, out⟩) := by
  induction n using Nat.strongRecOn generalizing st with
  | ind n ih =>
    match n with
    | 0 => rfl
    | 1 => rfl
    | 2 => simp only [exit, appTasks, exec]
    | n + 3 =>
      have := ih n (by omega) st'
      simp only [exit, appTasks, h, exec] at this ⊢
      rw [this]

/-- An action that is registered by an action is not executed, although it is registered before the
process ends. -/
theorem C91_registered_violation (body : Nat → List Cmd) (a b : Nat) (h : body a = [.atExit b]) (st : Int)
    (n : Nat) : exit body (n + 4) st ⟨[a], []⟩ = (.ended st, ⟨[b, a], []⟩) := by
  simp only [exit, appTasks, h, exec, atExit]

example : ∃ body : Nat → List Cmd, body 1 = [.raise] ∧ body 2 = [.exit 0] ∧ body 3 = [.atExit 4] :=
  ⟨fun a => if a = 1 then [.raise] else if a = 2 then [.exit 0] else [.atExit 4], rfl, rfl, rfl⟩

/-- `isSuccess success = true`, `isSuccess failure = false`, and success is the only successful status. -/
theorem C91_isSuccess (sv : Int) :
    isSuccess success = true ∧ isSuccess failure = false ∧ (isSuccess sv = true ↔ sv = success) := by
  refine ⟨rfl, rfl, ?_⟩
  simp [isSuccess]

/-- A program started by `system` that ends with `terminate st` (or `exit st`) is successful exactly when `st` is
`success`, for codes between -255 and 255, among them `failure`. -/
theorem C91_status_partial (st : Int) (h1 : -256 < st) (h2 : st < 256) :
    isSuccess (system false (terminate st)) = isSuccess st := by
  have e : system false (terminate st) = 256 * (st % 256) := by
    simp only [system, terminate, Bool.false_eq_true, if_false]
    omega
  rw [e, Bool.eq_iff_iff]
  simp only [isSuccess, success, beq_iff_eq]
  omega

example : -256 < failure ∧ failure < 256 := by decide

/-- A program that passes on the status of a command, `Process.exit (Process.system cmd)`, always ends
successfully when the command ends with a code, whatever that code is. -/
theorem C91_pass_on_violation (n : Nat) (cmdFails : n ≠ 0) :
    isSuccess (system false (.code n)) = false ∧
    isSuccess (system false (terminate (system false (.code n)))) = true := by
  constructor
  · simp [isSuccess, system, success, cmdFails]
  · simp [isSuccess, system, success, terminate]

example : (1 : Nat) ≠ 0 := by decide

/-- A command that is killed or not found is reported as a failure. -/
theorem C91_killed (n : Nat) (h : n ≠ 0) (e : End) :
    isSuccess (system false (.signal n)) = false ∧ isSuccess (system true e) = false := by
  constructor
  · simp [isSuccess, system, success, h]
  · simp [isSuccess, system, success]

example : (9 : Nat) ≠ 0 := by decide

/-- `sleep` sleeps for the time given, and not at all for times that are not positive, as long as the
seconds fit 32 bits. -/
theorem C91_sleep_partial (t : Int) (h : t < 4294967296 * 1000000) :
    (sleepTime t : Int) = max 0 t := by
  unfold sleepTime
  by_cases ht : t > 0
  · rw [if_pos ht]
    have : (t / 1000000).toNat % 4294967296 = (t / 1000000).toNat := Nat.mod_eq_of_lt (by omega)
    rw [this]
    omega
  · rw [if_neg ht]; omega

example : (2500000 : Int) < 4294967296 * 1000000 ∧ sleepTime 2500000 = 2500000 := by decide

/-- A time of 2^32 seconds is not slept at all. -/
theorem C91_sleep_violation : sleepTime (4294967296 * 1000000) = 0 := by decide +kernel

/-- `getEnv` is the environment, for names without NUL. -/
theorem C91_getEnv_partial (env : Name → Option Name) (s : Name) (h : Char.ofNat 0 ∉ s) :
    getEnv env s = env s := by rw [getEnv, Files.takeWhile_all s h]

example : Char.ofNat 0 ∉ "PATH".toList := by decide

theorem argLoop_eq {α : Type} (a : List α) (lo : Nat) (i : Nat) (hi : i < a.length) (hlo : lo ≤ i + 1) (res : List α) :
    argLoop a lo i res = (a.take (i + 1)).drop lo ++ res := by
  induction i generalizing res with
  | zero =>
    rw [argLoop]
    cases a with
    | nil => simp at hi
    | cons x xs =>
      by_cases h0 : lo = 0
      · subst h0; simp
      · have : lo = 1 := by omega
        subst this; simp
  | succ i ih =>
    rw [argLoop]
    by_cases h : i + 1 ≥ lo
    · rw [if_pos h, ih (by omega) h, List.getElem?_eq_getElem hi]
      have e : a.take (i + 1 + 1) = a.take (i + 1) ++ [a[i + 1]] := by
        rw [List.take_add_one, List.getElem?_eq_getElem hi]; rfl
      have hl : lo ≤ (a.take (i + 1)).length := by rw [List.length_take]; omega
      rw [e, List.drop_append_of_le_length hl]
      simp
    · rw [if_neg h]
      have : lo = i + 1 + 1 := by omega
      subst this
      rw [List.drop_eq_nil_of_le (by rw [List.length_take]; omega)]; rfl

/-- `CommandLine.name`, `CommandLine.arguments` and `Mosml.argv` are the command line of the process. -/
theorem C91_commandLine {α : Type} (a : List α) :
    argv a = a ∧ arguments a = a.tail ∧ name a = a.head? := by
  cases a with
  | nil => exact ⟨rfl, rfl, rfl⟩
  | cons x xs =>
    refine ⟨?_, ?_, ?_⟩
    · have e : argv (x :: xs) = argLoop (x :: xs) 0 xs.length [] := rfl
      rw [e, argLoop_eq _ 0 _ (by simp) (by omega)]
      simp
    · have e : arguments (x :: xs) = argLoop (x :: xs) 1 xs.length [] := rfl
      rw [e, argLoop_eq _ 1 _ (by simp) (by omega)]
      simp
    · simp [name]

example : argv ["mosml", "-I", "lib"] = ["mosml", "-I", "lib"] ∧ arguments ["mosml", "-I", "lib"] = ["-I", "lib"] := by
  decide +kernel

theorem readLoop_len (l : List Name) : (Files.readLoop l).2.length ≤ l.length ∧
    (∀ f, (Files.readLoop l).1 = .name f → (Files.readLoop l).2.length < l.length) := by
  induction l with
  | nil => exact ⟨Nat.le_refl _, fun f h => by simp [Files.readLoop, Files.mkOpt] at h⟩
  | cons e l ih =>
    rw [Files.readLoop]
    split
    · exact ⟨by simp, fun f _ => by simp⟩
    · exact ⟨Nat.le_succ_of_le ih.1, fun f h => Nat.lt_succ_of_lt (ih.2 f h)⟩

theorem readAll_eq (n : Nat) (l : List Name) (hl : [] ∉ l) (hn : l.length < n) (res : List Name) :
    readAll n (Files.readDir (some l)) res = (visible l).reverse ++ res := by
  induction n generalizing l res with
  | zero => omega
  | succ n ih =>
    have hs := Files.readLoop_visible l hl
    have hr := Files.readLoop_rest l
    have e : Files.readDir (some l) = ((Files.readLoop l).1, some (Files.readLoop l).2) := rfl
    rw [e]
    cases hv : visible l with
    | nil => rw [hv] at hs; rw [hs]; rfl
    | cons v t =>
      rw [hv] at hs hr
      have h1 : (Files.readLoop l).1 = .name v := by rw [hs]
      rw [h1, readAll, ih _ (Files.readLoop_nonempty l hl) (by have := (readLoop_len l).2 v h1; omega), hr]
      simp

/-- `Mosml.listDir` returns every entry of the directory except `.` and `..`, as often as it occurs. -/
theorem C91_listDir (entries : List Name) (h : [] ∉ entries) :
    listDir entries = (visible entries).reverse ∧ (listDir entries).Perm (visible entries) := by
  have e : listDir entries = (visible entries).reverse := by
    unfold listDir
    rw [readAll_eq _ entries h (by omega)]; simp
  exact ⟨e, by rw [e]; exact List.reverse_perm _⟩

example : ([] : Name) ∉ [['.'], ['.', '.'], ['a'], ['b', '.', 'c']] := by decide

end Mosml.Proc
