import Mathlib.Data.Fintype.Basic
import Mathlib.Data.Finset.Basic
import Verif.Model.Py

/-!
# Model of the log file: `QTMConfig.init_logfile`, `qtmlogger_set_filehandle`

/repo/src/qtm/logger.py:450-518, /repo/src/qtm/config.py:86-89. POSIX files: a name points to an inode, an open file keeps its inode when the name is moved or replaced, `Path.rename` replaces the target
silently, `logging.FileHandler(name)` opens the file for appending and creates it if there is none.
-/

namespace Verif.LogFile

/-! ## One process, many calls -/

/-- A line in a log file: a message of the package's logger or a captured Python warning. -/
inductive Msg
  | qtm (id : ℕ)
  | warning (id : ℕ)
  deriving DecidableEq

/-- Is it a message of the package's logger? -/
def Msg.isQtm : Msg → Bool
  | .qtm _ => true
  | .warning _ => false

/-- Files and logging handlers of a process. `pre t` is the file `<stem>.pre<t><suffix>` with the time stamp `t` (whole seconds, logger.py:494-496). -/
structure St where
  log : Option ℕ := none
  pre : ℕ → Option ℕ := fun _ => none
  content : ℕ → List Msg := fun _ => []
  /-- inodes below this number are in use -/
  next : ℕ := 0
  /-- the handler of the package's logger: `logger.handlers` is cleared before one is added -/
  handler : Option ℕ := none
  /-- the handlers of the logger `py.warnings`, which are never removed -/
  warnH : List ℕ := []
  cap : Bool := false

/-- Append a line to an open file. -/
def St.append (s : St) (h : ℕ) (m : Msg) : St := { s with content := Function.update s.content h (s.content h ++ [m]) }

/-- A warning that Python's filters let through: captured warnings go to all handlers of `py.warnings`. -/
def warn (id : ℕ) (s : St) : St := if s.cap then s.warnH.foldl (fun s h => s.append h (.warning id)) s else s

/-- `qtmlogger.info(...)`; without a handler nothing is written to a file. -/
def logMsg (id : ℕ) (s : St) : St :=
  match s.handler with
  | none => s
  | some h => s.append h (.qtm id)

/-- Move the log file out of the way — logger.py:489-502. `shown` says whether Python's filters let the warning through. -/
def moveAway (t : ℕ) (shown : Bool) (s : St) : St :=
  match s.log with
  | none => s
  | some a =>
    let s := if shown then warn 1 s else s
    { s with pre := Function.update s.pre t (some a), log := none }

/-- `logging.FileHandler(file_dir)` — logger.py:504. -/
def openLog (s : St) : St × ℕ :=
  match s.log with
  | some a => (s, a)
  | none => ({ s with log := some s.next, content := Function.update s.content s.next [], next := s.next + 1 }, s.next)

/-- `qtmlogger_set_filehandle(file_dir, capture_warnings=cap)` at time `t` in a single process — logger.py:478-518. The levels are the defaults. -/
def setFile (t : ℕ) (shown1 shown2 cap : Bool) (s : St) : St :=
  let s := if s.handler.isSome then { (if shown1 then warn 0 s else s) with handler := none } else s
  let s := moveAway t shown2 s
  let (s, h) := openLog s
  { s with handler := some h, cap := cap, warnH := if cap then s.warnH ++ [h] else s.warnH }

/-- What a program does with the logger. -/
inductive Op
  | setFile (t : ℕ) (shown1 shown2 cap : Bool)
  | log (id : ℕ)
  | warn (id : ℕ)

/-- One operation. -/
def Op.run : Op → St → St
  | .setFile t a b c, s => LogFile.setFile t a b c s
  | .log id, s => logMsg id s
  | .warn id, s => LogFile.warn id s

/-- A history of operations. -/
def runAll (ops : List Op) (s : St) : St := ops.foldl (fun s o => o.run s) s

/-! ## Many processes, one call -/

/-- Where a process is in `qtmlogger_set_filehandle`. -/
inductive Phase
  /-- before `logfile_path.is_file()` — logger.py:489 -/
  | start
  /-- in `COMM_WORLD.barrier()` — logger.py:490-491 -/
  | wait
  /-- past the barrier — logger.py:492 -/
  | past
  /-- before `logging.FileHandler(file_dir)` — logger.py:504 -/
  | ready
  /-- returned; the open file -/
  | done (h : ℕ)
  deriving DecidableEq

/-- The processes and the shared directory. -/
structure Sys (n : ℕ) where
  phase : Fin n → Phase
  /-- has the process entered the barrier? -/
  entered : Fin n → Bool
  log : Option ℕ
  pre : Option ℕ
  next : ℕ

/-- The next step of process `i`; `none`: it has returned or it waits for processes that have not entered the barrier. Only rank 0 renames — logger.py:489-504. -/
def step {n : ℕ} (s : Sys n) (i : Fin n) : Option (Sys n) :=
  let go := fun p => Function.update s.phase i p
  match s.phase i with
  | .start =>
    if s.log.isSome then some { s with phase := go .wait, entered := Function.update s.entered i true }
    else some { s with phase := go .ready }
  | .wait => if ∀ j, s.entered j = true then some { s with phase := go .past } else none
  | .past => if i.val = 0 then some { s with phase := go .ready, pre := s.log, log := none } else some { s with phase := go .ready }
  | .ready =>
    match s.log with
    | some a => some { s with phase := go (.done a) }
    | none => some { s with phase := go (.done s.next), log := some s.next, next := s.next + 1 }
  | .done _ => none

/-- Run a schedule: the list of the processes that take a step; a blocked process does nothing. -/
def exec {n : ℕ} (s : Sys n) (sched : List (Fin n)) : Sys n := sched.foldl (fun s i => (step s i).getD s) s

/-- All processes before the call; `log` is the log file of an earlier run, if there is one. -/
def init (n : ℕ) (log : Option ℕ) : Sys n :=
  { phase := fun _ => .start, entered := fun _ => false, log := log, pre := none, next := log.elim 0 (· + 1) }

end Verif.LogFile
