import Verif.Base
/-!
C123: the command-line programs: `entry.py` 27–80 (`main`), `__main__.py` 15–16, `app.py` 25–29,
`commands/common.py` 45–70 and 84–93, `commands/arbiter.py` 20–55, `commands/task.py` 19–38,
`commands/server.py` 128–131, `commands/tftp.py` 20–47, `commands/tui.py` 26–60, `commands/mtu.py` 15–27.

The parser of arguments, the logging set-up, the application that a configuration describes (C55, C81, C82),
TFTP transfers (C39, C64), the interface and the probe are parameters which may return, raise `SystemExit` or
raise anything else, and may change the working directory and the files. Assumed of vcorelib:
`run_handle_stop` gives the result of what it ran, `tempfile` gives a path that was not there and removes it
on every way out, `app_args` calls the function of the command named. Assumed of the platform: `sys.exit`
with an integer (a truth value is one) ends with that integer modulo 256, with `None` with 0, with anything
else, or with an exception that nobody caught, with 1. Rates are rational numbers.
-/
namespace Verif.Programs
open Verif

/-- A Python value that is returned or given to `SystemExit`. -/
inductive Val where
  | none
  | int (i : Int)
  | bool (b : Bool)
  | other
  deriving DecidableEq, Repr

/-- The exit status that `sys.exit(value)` gives a process. -/
def Val.status : Val → Nat
  | .none => 0
  | .int i => (i % 256).toNat
  | .bool b => if b then 1 else 0
  | .other => 1

/-- How a piece of code ends. -/
inductive Out (α : Type) where
  | ret (a : α)
  | exit (code : Val)
  | raised
  deriving DecidableEq, Repr

variable {Dir Path Data Win : Type}

/-- The working directory and the files with their contents. -/
structure World (Dir Path Data : Type) where
  cwd : Dir
  files : List (Path × Data)

/-- The namespace of arguments; `window` is absent, `None` or a window. -/
structure Args (Dir Path Win : Type) where
  dir : Dir
  window : Option (Option Win) := none
  curses : Bool := false
  configs : List Path := []
  initOnly : Bool := false
  rate : Rat := 10
  ours : Path
  theirs : Option Path := none
  reads : Bool := true

/-- A command: `CommandFunction`, with its effect on the world. -/
abbrev Cmd (Dir Path Data Win : Type) :=
  Args Dir Path Win → World Dir Path Data → World Dir Path Data × Out Val

/-! ### entry.py -/

/-- The parts of `main` which are not modelled. -/
structure Parts (Dir Path Data Win : Type) where
  /-- `parser.parse_args` and `args.dir.resolve()` -/
  parse : Out (Args Dir Path Win)
  /-- `init_logging` -/
  logging : Out Unit
  /-- whether `os.chdir` works -/
  there : Dir → Bool
  /-- `COMMAND(args)` -/
  entry : Cmd Dir Path Data Win

/-- The `try` of `main`, entry.py 59–74. -/
def attempt (p : Parts Dir Path Data Win) (w : World Dir Path Data) : World Dir Path Data × Out Val :=
  match p.parse with
  | .exit c => (w, .exit c)
  | .raised => (w, .raised)
  | .ret a =>
    match p.logging with
    | .exit c => (w, .exit c)
    | .raised => (w, .raised)
    | .ret _ => if p.there a.dir then p.entry a { w with cwd := a.dir } else (w, .raised)

/-- entry.py 75–78: `isinstance(True, int)` holds. -/
def exitResult : Val → Val
  | .int i => .int i
  | .bool b => .bool b
  | _ => .int 1

/-- `main`, entry.py 27–83; `none` if an exception escapes. -/
def main (p : Parts Dir Path Data Win) (w : World Dir Path Data) : World Dir Path Data × Option Val :=
  match attempt p w with
  | (w', .raised) => (w', none)
  | (w', .exit c) => ({ w' with cwd := w.cwd }, some (exitResult c))
  | (w', .ret v) => ({ w' with cwd := w.cwd }, some v)

/-- The exit status of the process, `__main__.py` 15–16 (and the script of pyproject.toml 51). -/
def status (p : Parts Dir Path Data Win) (w : World Dir Path Data) : Nat :=
  match (main p w).2 with
  | some v => v.status
  | none => 1

/-! ### commands/common.py -/

/-- `curses_wrap_if`, common.py 45–70; `term` is `curses.wrapper`'s terminal: `none` if the module is missing
(then the look-up of `wrapper` raises). -/
def cursesWrapIf (term : Option Win) (method : Cmd Dir Path Data Win) : Cmd Dir Path Data Win := fun a w =>
  match a.window with
  | some _ => (w, .raised)
  | none =>
    if a.curses then
      match term with
      | some win => method { a with window := some (some win) } w
      | none => (w, .raised)
    else method { a with window := some none } w

/-- `cmd_with_jit`, common.py 84–93: `tmp` is the path that `tempfile` gives. -/
def withJit [DecidableEq Path] (tmp : Path) (command : Cmd Dir Path Data Win) (data : Data) : Cmd Dir Path Data Win := fun a w =>
  let r := command { a with configs := a.configs ++ [tmp] } { w with files := w.files ++ [(tmp, data)] }
  ({ r.1 with files := r.1.files.filter fun f => f.1 ≠ tmp }, r.2)

/-! ### The commands -/

/-- What an application is run with: whether its stop signal is already set, its window, its configurations. -/
abbrev Application (Dir Path Data Win : Type) :=
  Bool → Option Win → List Path → World Dir Path Data → World Dir Path Data × Out Int

/-- `app`, arbiter.py 38–52. -/
def app (run : Application Dir Path Data Win) : Cmd Dir Path Data Win := fun a w =>
  match run a.initOnly a.window.join a.configs w with
  | (w', .ret i) => (w', .ret (.int i))
  | (w', .exit c) => (w', .exit c)
  | (w', .raised) => (w', .raised)

/-- `arbiter_cmd`, arbiter.py 55–58. -/
def arbiterCmd (term : Option Win) (run : Application Dir Path Data Win) : Cmd Dir Path Data Win :=
  cursesWrapIf term (app run)

/-- `task_cmd`, task.py 19–38: the configuration is made before anything else. -/
def taskCmd [DecidableEq Path] (term : Option Win) (run : Application Dir Path Data Win) (tmp : Path) (config : Rat → Data) :
    Cmd Dir Path Data Win := fun a w =>
  if a.rate = 0 then (w, .raised) else withJit tmp (arbiterCmd term run) (config (1 / a.rate)) a w

/-- `server_cmd`, server.py 128–131. -/
def serverCmd [DecidableEq Path] (term : Option Win) (run : Application Dir Path Data Win) (tmp : Path)
    (config : Args Dir Path Win → Data) : Cmd Dir Path Data Win := fun a w =>
  withJit tmp (arbiterCmd term run) (config a) a w

/-- A transfer: reading or writing, our path, their path. -/
abbrev Transfer (Dir Path Data : Type) :=
  Bool → Path → Path → World Dir Path Data → World Dir Path Data × Out Bool

/-- `tftp_cmd`, tftp.py 20–47. -/
def tftpCmd (transfer : Transfer Dir Path Data) : Cmd Dir Path Data Win := fun a w =>
  match transfer a.reads a.ours (a.theirs.getD a.ours) w with
  | (w', .ret b) => (w', .ret (.bool b))
  | (w', .exit c) => (w', .exit c)
  | (w', .raised) => (w', .raised)

/-- `start`, tui.py 26–50: an interface with a period. -/
def tuiStart (ui : Rat → Win → World Dir Path Data → World Dir Path Data × Out Val) : Cmd Dir Path Data Win :=
  fun a w =>
  match a.window with
  | some (some win) =>
    if a.rate = 0 then (w, .raised) else
    match ui (1 / a.rate) win w with
    | (w', .ret _) => (w', .ret (.int 0))
    | (w', .exit c) => (w', .exit c)
    | (w', .raised) => (w', .raised)
  | _ => (w, .raised)

/-- `tui_cmd`, tui.py 53–57. -/
def tuiCmd (term : Option Win) (ui : Rat → Win → World Dir Path Data → World Dir Path Data × Out Val) :
    Cmd Dir Path Data Win := fun a w =>
  cursesWrapIf term (tuiStart ui) { a with curses := true } w

/-- `mtu_cmd`, mtu.py 15–27. -/
def mtuCmd (probe : World Dir Path Data → World Dir Path Data × Out Unit) : Cmd Dir Path Data Win := fun _ w =>
  match probe w with
  | (w', .ret _) => (w', .ret (.int 0))
  | (w', .exit c) => (w', .exit c)
  | (w', .raised) => (w', .raised)

/-! ### Claims -/

/-- Whenever `main` returns, the working directory is the one it was called in, whatever the command did. -/
theorem C123_home (p : Parts Dir Path Data Win) (w : World Dir Path Data) (v : Val)
    (h : (main p w).2 = some v) : (main p w).1.cwd = w.cwd := by
  unfold main at *
  split at h <;> simp_all

/-- **False in general.** If the command raises anything but `SystemExit`, a caller of `main` is left in the
directory where the command was. -/
theorem C123_home_fails (p : Parts Dir Path Data Win) (w : World Dir Path Data) (a : Args Dir Path Win)
    (hp : p.parse = .ret a) (hl : p.logging = .ret ()) (hd : p.there a.dir = true)
    (hr : (p.entry a { w with cwd := a.dir }).2 = .raised) :
    (main p w).2 = none ∧ (main p w).1 = (p.entry a { w with cwd := a.dir }).1 := by
  have : attempt p w = p.entry a { w with cwd := a.dir } := by simp [attempt, hp, hl, hd]
  unfold main
  rw [this]
  rcases he : p.entry a { w with cwd := a.dir } with ⟨w', o⟩
  rw [he] at hr
  simp only at hr
  subst hr
  simp

/-- `main` runs the command exactly in the directory asked for, with the arguments parsed, and gives its value;
if the directory is not there, nothing is run. -/
theorem C123_runs (p : Parts Dir Path Data Win) (w : World Dir Path Data) (a : Args Dir Path Win)
    (hp : p.parse = .ret a) (hl : p.logging = .ret ()) :
    (p.there a.dir = false → (main p w).2 = none ∧ (main p w).1 = w) ∧
    (p.there a.dir = true → ∀ v w', p.entry a { w with cwd := a.dir } = (w', .ret v) →
      (main p w).2 = some v ∧ (main p w).1.files = w'.files) := by
  constructor
  · intro hd
    simp [main, attempt, hp, hl, hd]
  · intro hd v w' he
    simp [main, attempt, hp, hl, hd, he]

/-- `SystemExit` with an integer, from the parser or the command, is the result; the status of the process is
the one it would have had without `main`. -/
theorem C123_exit (p : Parts Dir Path Data Win) (w : World Dir Path Data) (c : Val)
    (h : (attempt p w).2 = .exit c) :
    (∀ i, c = .int i → (main p w).2 = some (.int i)) ∧
    (c ≠ .none → status p w = c.status) := by
  rcases he : attempt p w with ⟨w', o⟩
  rw [he] at h
  simp only at h
  subst h
  constructor
  · rintro i rfl
    simp [main, he, exitResult]
  · intro hn
    cases c <;> simp_all [status, main, exitResult, Val.status]

/-- **False for `sys.exit()`.** `SystemExit` without a code is Python's way to end a program that did well (status
0), and is turned into 1. -/
theorem C123_none_fails (p : Parts Dir Path Data Win) (w : World Dir Path Data)
    (h : (attempt p w).2 = .exit .none) : status p w = 1 ∧ Val.none.status = 0 := by
  rcases he : attempt p w with ⟨w', o⟩
  rw [he] at h
  simp only at h
  subst h
  simp [status, main, he, exitResult, Val.status]

/-- A run of `main` whose arguments are good. -/
structure Good (p : Parts Dir Path Data Win) (a : Args Dir Path Win) : Prop where
  parse : p.parse = .ret a
  logging : p.logging = .ret ()
  there : p.there a.dir = true

theorem status_ret {p : Parts Dir Path Data Win} {a : Args Dir Path Win} (g : Good p a)
    (w w' : World Dir Path Data) (v : Val) (h : p.entry a { w with cwd := a.dir } = (w', .ret v)) :
    status p w = v.status := by
  simp [status, main, attempt, g.parse, g.logging, g.there, h]

theorem status_raised {p : Parts Dir Path Data Win} {a : Args Dir Path Win} (g : Good p a)
    (w w' : World Dir Path Data) (h : p.entry a { w with cwd := a.dir } = (w', .raised)) :
    status p w = 1 := by
  simp [status, main, attempt, g.parse, g.logging, g.there, h]

/-- The arbiter command's status is the application's result as long as that is a status; a window is never
made for it. -/
theorem C123_arbiter (p : Parts Dir Path Data Win) (a : Args Dir Path Win) (g : Good p a)
    (w w' : World Dir Path Data) (term : Option Win) (run : Application Dir Path Data Win)
    (hw : a.window = none) (hc : a.curses = false) (he : p.entry = arbiterCmd term run) (i : Int)
    (hr : run a.initOnly none a.configs { w with cwd := a.dir } = (w', .ret i)) :
    (main p w).2 = some (.int i) ∧ (0 ≤ i → i < 256 → (status p w : Int) = i) ∧
    (i = -1 → status p w = 255) := by
  have e : p.entry a { w with cwd := a.dir } = (w', .ret (.int i)) := by
    rw [he]
    simp [arbiterCmd, cursesWrapIf, hw, hc, app, hr]
  refine ⟨by simp [main, attempt, g.parse, g.logging, g.there, e], fun h0 h1 => ?_, fun h => ?_⟩
  · rw [status_ret g w w' _ e]
    show (((i % 256).toNat : Nat) : Int) = i
    omega
  · rw [status_ret g w w' _ e, h]
    rfl

/-- **False in general.** A result which is a multiple of 256 is lost: the process ends with 0. -/
theorem C123_arbiter_fails (p : Parts Dir Path Data Win) (a : Args Dir Path Win) (g : Good p a)
    (w w' : World Dir Path Data) (term : Option Win) (run : Application Dir Path Data Win)
    (hw : a.window = none) (hc : a.curses = false) (he : p.entry = arbiterCmd term run) (k : Int)
    (hr : run a.initOnly none a.configs { w with cwd := a.dir } = (w', .ret (256 * k))) :
    status p w = 0 := by
  have e : p.entry a { w with cwd := a.dir } = (w', .ret (.int (256 * k))) := by
    rw [he]
    simp [arbiterCmd, cursesWrapIf, hw, hc, app, hr]
  rw [status_ret g w w' _ e]
  simp [Val.status]

/-- **False: the status of a transfer is the wrong way round.** If the transfer ends without an exception, the
process ends with 0 exactly if the transfer failed. The transfer is asked for with their path if one was given
and ours otherwise. -/
theorem C123_tftp_fails (p : Parts Dir Path Data Win) (a : Args Dir Path Win) (g : Good p a)
    (w w' : World Dir Path Data) (transfer : Transfer Dir Path Data) (he : p.entry = tftpCmd transfer)
    (done : Bool)
    (hr : transfer a.reads a.ours (match a.theirs with | some t => t | none => a.ours) { w with cwd := a.dir }
      = (w', .ret done)) :
    (status p w = 0 ↔ done = false) ∧ (status p w = 1 ↔ done = true) := by
  have e : p.entry a { w with cwd := a.dir } = (w', .ret (.bool done)) := by
    rw [he]
    cases ht : a.theirs <;> simp_all [tftpCmd]
  rw [status_ret g w w' _ e]
  cases done <;> simp [Val.status]

/-- An exception of a transfer, in contrast, is a failure. -/
theorem C123_tftp_raised (p : Parts Dir Path Data Win) (a : Args Dir Path Win) (g : Good p a)
    (w w' : World Dir Path Data) (transfer : Transfer Dir Path Data) (he : p.entry = tftpCmd transfer)
    (hr : transfer a.reads a.ours (match a.theirs with | some t => t | none => a.ours) { w with cwd := a.dir }
      = (w', .raised)) : status p w = 1 := by
  have e : p.entry a { w with cwd := a.dir } = (w', .raised) := by
    rw [he]
    cases ht : a.theirs <;> simp_all [tftpCmd]
  exact status_raised g w w' e

/-- The method wrapped is given a window exactly if one is asked for, and what it does is what the wrapper does;
arguments that were wrapped before are refused without running it, as is a terminal which is not there. -/
theorem C123_window (term : Option Win) (method : Cmd Dir Path Data Win) (a : Args Dir Path Win)
    (w : World Dir Path Data) :
    (a.window = none → a.curses = false → cursesWrapIf term method a w = method { a with window := some none } w) ∧
    (∀ win, a.window = none → a.curses = true → term = some win →
      cursesWrapIf term method a w = method { a with window := some (some win) } w) ∧
    (a.window ≠ none → cursesWrapIf term method a w = (w, .raised)) ∧
    (a.curses = true → term = none → cursesWrapIf term method a w = (w, .raised)) := by
  refine ⟨fun h1 h2 => ?_, fun win h1 h2 h3 => ?_, fun h => ?_, fun h1 h2 => ?_⟩
  · simp [cursesWrapIf, h1, h2]
  · simp [cursesWrapIf, h1, h2, h3]
  · cases hw : a.window <;> simp_all [cursesWrapIf]
  · cases hw : a.window <;> simp_all [cursesWrapIf]

/-- A command run with data of its own: it sees the given configurations first and then one file with the data;
afterwards that file is gone, whatever the outcome, and every other file is as the command left it. -/
theorem C123_jit [DecidableEq Path] (tmp : Path) (command : Cmd Dir Path Data Win) (data : Data) (a : Args Dir Path Win)
    (w : World Dir Path Data) :
    ∃ a' w', a'.configs = a.configs ++ [tmp] ∧ (tmp, data) ∈ w'.files ∧ w'.cwd = w.cwd ∧
      (∀ f, f ∈ w.files → f ∈ w'.files) ∧ a'.initOnly = a.initOnly ∧ a'.window = a.window ∧
      (withJit tmp command data a w).2 = (command a' w').2 ∧
      (∀ d, (tmp, d) ∉ (withJit tmp command data a w).1.files) ∧
      (∀ f, f.1 ≠ tmp → (f ∈ (withJit tmp command data a w).1.files ↔ f ∈ (command a' w').1.files)) := by
  refine ⟨{ a with configs := a.configs ++ [tmp] }, { w with files := w.files ++ [(tmp, data)] }, rfl, by simp, rfl,
    fun f h => by simp [h], rfl, rfl, rfl, fun d => by simp [withJit], fun f h => ?_⟩
  have h' : ¬ f.1 = tmp := h
  simp only [withJit, List.mem_filter, decide_not, Bool.not_eq_true', decide_eq_false_iff_not]
  exact ⟨fun x => x.1, fun x => ⟨x, h'⟩⟩

/-- The task command runs the application with a period that is the inverse of the rate; with rate 0 nothing is
run and no file is made. -/
theorem C123_task [DecidableEq Path] (term : Option Win) (run : Application Dir Path Data Win) (tmp : Path) (config : Rat → Data)
    (a : Args Dir Path Win) (w : World Dir Path Data) :
    (a.rate = 0 → taskCmd term run tmp config a w = (w, .raised)) ∧
    (a.rate ≠ 0 → a.window = none → a.curses = false → ∃ period w₁, period * a.rate = 1 ∧
      (tmp, config period) ∈ w₁.files ∧
      (taskCmd term run tmp config a w).2 =
        (match (run a.initOnly none (a.configs ++ [tmp]) w₁).2 with
          | .ret i => Out.ret (Val.int i) | .exit c => .exit c | .raised => .raised)) := by
  constructor
  · intro h
    simp [taskCmd, h]
  · intro h hw hc
    refine ⟨1 / a.rate, { w with files := w.files ++ [(tmp, config (1 / a.rate))] }, ?_, by simp, ?_⟩
    · rw [Rat.div_def, Rat.one_mul]
      exact Rat.inv_mul_cancel _ h
    · simp only [taskCmd, h, if_false, withJit, arbiterCmd, cursesWrapIf, hw, hc, app, Option.join]
      rcases hu : run a.initOnly none (a.configs ++ [tmp])
        { w with files := w.files ++ [(tmp, config (1 / a.rate))] } with ⟨w', o⟩
      cases o <;> simp_all

/-- The server command runs the application with the configuration made of the arguments as they were given, after
the configurations named, and gives its result. -/
theorem C123_server [DecidableEq Path] (term : Option Win) (run : Application Dir Path Data Win) (tmp : Path)
    (config : Args Dir Path Win → Data) (a : Args Dir Path Win) (w : World Dir Path Data) (hw : a.window = none)
    (hc : a.curses = false) : ∃ w₁, (tmp, config a) ∈ w₁.files ∧ w₁.cwd = w.cwd ∧
      (serverCmd term run tmp config a w).2 =
        (match (run a.initOnly none (a.configs ++ [tmp]) w₁).2 with
          | .ret i => Out.ret (Val.int i) | .exit c => .exit c | .raised => .raised) := by
  refine ⟨{ w with files := w.files ++ [(tmp, config a)] }, by simp, rfl, ?_⟩
  simp only [serverCmd, withJit, arbiterCmd, cursesWrapIf, hw, hc, app, Option.join]
  rcases hu : run a.initOnly none (a.configs ++ [tmp]) { w with files := w.files ++ [(tmp, config a)] } with ⟨w', o⟩
  cases o <;> simp_all

/-- The interface and the probe report success whatever they found, unless they raise; the interface is run with a
window. -/
theorem C123_quiet (term : Option Win) (ui : Rat → Win → World Dir Path Data → World Dir Path Data × Out Val)
    (probe : World Dir Path Data → World Dir Path Data × Out Unit) (a : Args Dir Path Win)
    (w : World Dir Path Data) :
    (∀ v, (tuiCmd term ui a w).2 = .ret v → v = .int 0 ∧ ∃ win period, term = some win ∧ period * a.rate = 1 ∧
      ∃ u, (ui period win w).2 = .ret u) ∧
    (∀ v, (mtuCmd (Win := Win) probe a w).2 = .ret v → v = .int 0 ∧ (probe w).2 = .ret ()) := by
  constructor
  · intro v h
    unfold tuiCmd cursesWrapIf at h
    cases hw : a.window with
    | some x => simp [hw] at h
    | none =>
      cases ht : term with
      | none => simp [hw, ht] at h
      | some win =>
        simp only [hw, ht, if_true, tuiStart] at h
        by_cases h0 : a.rate = 0
        · simp [h0] at h
        · simp only [h0, if_false] at h
          refine ⟨?_, win, 1 / a.rate, rfl, by rw [Rat.div_def, Rat.one_mul]; exact Rat.inv_mul_cancel _ h0, ?_⟩ <;>
          · rcases hu : ui (1 / a.rate) win w with ⟨w', o⟩
            rw [hu] at h
            cases o <;> simp_all
  · intro v h
    unfold mtuCmd at h
    rcases hu : probe w with ⟨w', o⟩
    rw [hu] at h
    cases o <;> simp_all

/-! ### Cases -/

def exParts (cmd : Cmd Nat Nat Nat Unit) : Parts Nat Nat Nat Unit where
  parse := .ret { dir := 7, ours := 1, configs := [3], theirs := none }
  logging := .ret ()
  there := fun d => d == 7
  entry := cmd

def exWorld : World Nat Nat Nat := ⟨5, [(3, 30)]⟩

/-- A transfer that works and one that doesn't, an application and an argument error. -/
theorem C123_cases :
    status (exParts (tftpCmd fun _ o t w => ({ w with cwd := 9 }, .ret (o == t)))) exWorld = 1 ∧
    status (exParts (tftpCmd fun _ _ _ w => (w, .ret false))) exWorld = 0 ∧
    status (exParts (tftpCmd fun _ _ _ w => (w, .raised))) exWorld = 1 ∧
    status (exParts (taskCmd none (fun _ _ c w => (w, .ret (c.length + w.files.length : Nat))) 4 (fun _ => 2)))
      exWorld = 4 ∧
    (main (exParts (taskCmd none (fun _ _ c w => (w, .ret (c.length + w.files.length : Nat))) 4 (fun _ => 2)))
      exWorld).1.files = [(3, 30)] ∧
    (main (exParts (tftpCmd fun _ _ _ w => ({ w with cwd := 9 }, .raised))) exWorld).1.cwd = 9 ∧
    status { exParts (mtuCmd fun w => (w, .ret ())) with parse := .exit (.int 2) } exWorld = 2 ∧
    status { exParts (mtuCmd fun w => (w, .ret ())) with parse := .exit .none } exWorld = 1 := by
  decide +kernel

end Verif.Programs
