import Verif.Util
import Verif.Files.Model

/-!
Model of src/mosmllib/Process.mlp with the primitives sml_system, sml_sleep (src/runtime/mosml.c), sys_exit
and sys_getenv (src/runtime/sys.c), of src/mosmllib/CommandLine.sml, and of `argv` and `listDir` in
src/mosmllib/Mosml.mlp.  Functions of type `unit -> unit` are numbers; what a function does when it is called
is a list of commands given by a table, so that actions can register actions, raise exceptions and call
`exit` themselves.  The operating system's part is the convention of POSIX: a process that calls
`exit(n)` ends with the low eight bits of n, and `system` returns 256 times that number for a command
that ends in this way, or the number of the signal that killed it.
-/
namespace Mosml.Proc

/-! ### Exit actions -/

/-- what the body of an action may do -/
inductive Cmd
  | emit (e : Nat)                 -- an effect that can be observed
  | atExit (a : Nat)               -- Process.atExit
  | raise                          -- raises an exception
  | exit (status : Int)            -- Process.exit
  | terminate (status : Int)       -- Process.terminate
  deriving DecidableEq

/-- what calling a function comes to -/
inductive Outcome
  | returned
  | raised
  | ended (status : Int)           -- the process is gone
  | unfinished                     -- not within the given number of steps
  deriving DecidableEq

/-- the list in `exittasks` (Process.mlp:27) and the effects so far -/
structure St where
  tasks : List Nat
  out : List Nat
  deriving DecidableEq

/-- Process.mlp:29-30 atExit -/
def atExit (a : Nat) (s : St) : St := { s with tasks := a :: s.tasks }

mutual
/-- executing the body of a function -/
def exec (body : Nat → List Cmd) : Nat → List Cmd → St → Outcome × St
  | 0, _, s => (.unfinished, s)
  | _ + 1, [], s => (.returned, s)
  | n + 1, .emit e :: cs, s => exec body n cs { s with out := s.out ++ [e] }
  | n + 1, .atExit a :: cs, s => exec body n cs (atExit a s)
  | _ + 1, .raise :: _, s => (.raised, s)
  | n + 1, .exit st :: _, s => exit body n st s
  | _ + 1, .terminate st :: _, s => (.ended st, s)
/-- Process.mlp:31-33 exit: the list is read once, at the beginning. -/
def exit (body : Nat → List Cmd) : Nat → Int → St → Outcome × St
  | 0, _, s => (.unfinished, s)
  | n + 1, st, s => appTasks body n s.tasks st s
/-- List.app over the list, then `terminate` -/
def appTasks (body : Nat → List Cmd) : Nat → List Nat → Int → St → Outcome × St
  | 0, _, _, s => (.unfinished, s)
  | _ + 1, [], st, s => (.ended st, s)
  | n + 1, f :: fs, st, s =>
    match exec body n (body f) s with
    | (.returned, s') => appTasks body n fs st s'
    | r => r
end

/-! ### Status values -/

/-- Process.mlp:5 -/
def success : Int := 0
/-- Process.mlp:10 -/
def failure : Int := -1
/-- Process.mlp:22 -/
def isSuccess (sv : Int) : Bool := sv == success

/-- the end of a process as its parent sees it: with a code, or killed by a signal -/
inductive End | code (n : Nat) | signal (n : Nat)
  deriving DecidableEq

/-- sys.c:88-92 `exit(Int_val(retcode))`: the low eight bits are kept. -/
def terminate (status : Int) : End := .code (status % 256).toNat

/-- mosml.c:115-124 sml_system: the status of the command from `waitpid`; ENOENT gives -1 (a tagged -1
is -1 itself). -/
def system (noent : Bool) (e : End) : Int :=
  if noent then -1 else
  match e with
  | .code n => 256 * n
  | .signal n => n

/-! ### sleep, getEnv, command line -/

/-- mosml.c:1629-1647 for a time of `t` microseconds (a whole number below 2^53, so the division and
remainder in floating point are taken to be exact): how many microseconds are slept.  `sleep` takes an
`unsigned int`. -/
def sleepTime (t : Int) : Nat :=
  if t > 0 then (t / 1000000).toNat % 4294967296 * 1000000 + (t % 1000000).toNat else 0

/-- Process.mlp:18 getEnv with sys.c:172-181; the environment answers for C strings. -/
def getEnv (env : Files.Name → Option Files.Name) (s : Files.Name) : Option Files.Name := env (Files.cString s)

/-- CommandLine.sml:11-15, Mosml.mlp:62-66: the loop `h` from `i` down to `lo` -/
def argLoop {α : Type} (argv : List α) (lo : Nat) : Nat → List α → List α
  | 0, res => if 0 ≥ lo then (match argv[0]? with | some a => a :: res | none => res) else res
  | i + 1, res =>
    if i + 1 ≥ lo then argLoop argv lo i (match argv[i + 1]? with | some a => a :: res | none => res) else res

/-- CommandLine.sml:11-15 arguments; `Vector.length argv_ - 1` is -1 for an empty vector, and then the
loop ends at once. -/
def arguments {α : Type} (argv : List α) : List α :=
  match argv.length with
  | 0 => []
  | n + 1 => argLoop argv 1 n []

/-- Mosml.mlp:62-66 argv -/
def argv {α : Type} (a : List α) : List α :=
  match a.length with
  | 0 => []
  | n + 1 => argLoop a 0 n []

/-- CommandLine.sml:7-9 name; none is the exception Fail -/
def name {α : Type} (argv : List α) : Option α := if argv.length > 0 then argv[0]? else none

/-- Mosml.mlp:93-95: `read (readDir dir) res`, once for every entry still to be delivered -/
def readAll : Nat → Files.Res × Files.Dir → List Files.Name → List Files.Name
  | n + 1, (.name f, d), res => readAll n (Files.readDir d) (f :: res)
  | _, _, res => res

/-- Mosml.mlp:90-96 listDir -/
def listDir (entries : List Files.Name) : List Files.Name :=
  readAll (entries.length + 1) (Files.readDir (some entries)) []

end Mosml.Proc
