import Mathlib.Data.List.Basic
import Mathlib.Algebra.Order.Field.Rat
import Verif.Model.Py

/-!
# Model of the timers and counters (/repo/src/qtm/logger.py)

`l_timer` / `l_counter` are NumPy structured arrays of `MAX_ENTRIES` rows of which the first `numtimer` / `numcounter`
are in use; the model keeps the list of the rows in use (rows beyond are never read before being overwritten). Log messages
are not modelled. Clock readings (`perf_counter`) are exact rationals, `call` and `count` do not overflow.
-/

namespace Verif.Logger

/-- Labels are Python strings: lists of characters. -/
abbrev Label := List Char

/-- `MAX_ENTRIES` — logger.py:59. -/
def maxEntries : ℕ := 500

/-- NumPy ignores trailing NUL characters of fixed-width strings, both when storing and when comparing. -/
def rstrip0 (l : Label) : Label := (l.reverse.dropWhile (· == '\x00')).reverse

/-- What is read back from a field of dtype `U30` after `l` has been stored — logger.py:44-57. -/
def u30 (l : Label) : Label := rstrip0 (l.take 30)

/-- A table: rows in use, label and remaining fields. -/
abbrev Table (V : Type) := List (Label × V)

/-- `np.nonzero(l_timer["label"][:numtimer] == label)[0]` — logger.py:133, 336. -/
def findAll {V : Type} (t : Table V) (l : Label) : List ℕ :=
  (List.range t.length).filter fun i => (t[i]?).any fun e => e.1 == rstrip0 l

/-- `_find_timer`, `_find_counter` — logger.py:113-141, 335-342 (a `str` label; the counter raises a bare `Exception` in
the last case, represented by `runtime`). -/
def find {V : Type} (t : Table V) (l : Label) : Except PyErr (Option ℕ) :=
  match findAll t l with
  | [] => .ok none
  | [i] => .ok (some i)
  | _ => .error .runtime

/-- `l_timer[i] = l_timer[numtimer - 1]; numtimer -= 1` — logger.py:282-283, 373-374. -/
def removeAt {V : Type} (t : Table V) (i : ℕ) : Table V :=
  match t.getLast? with
  | none => t
  | some e => (t.set i e).dropLast

/-- Fields of a timer other than the label — `TIMER_TYPE`, logger.py:44-52. -/
structure TVal where
  call : ℤ
  time : ℚ
  status : Bool
  start_time : ℚ
  deriving DecidableEq, Repr

/-- A `QTMTimer` together with the wall clock — logger.py:93-111. -/
structure TState where
  tbl : Table TVal
  now : ℚ
  enabled : Bool
  deriving DecidableEq, Repr

/-- Outcome of a call: `ok` or the exception, and the state afterwards. -/
abbrev Out := Except PyErr Unit × TState

/-- `timer["status"] = True; timer["call"] += 1; timer["start_time"] = perf_counter()` and the check before it —
logger.py:163-169. -/
def startAt (s : TState) (i : ℕ) : Out :=
  match s.tbl[i]? with
  | none => (.error .index, s)
  | some (k, v) =>
    if v.status then (.error .value, s)
    else (.ok (), { s with tbl := s.tbl.set i (k, { v with status := true, call := v.call + 1, start_time := s.now }) })

/-- `_start_timer` — logger.py:143-170. -/
def startTimer (l : Label) (s : TState) : Out :=
  match find s.tbl l with
  | .error e => (.error e, s)
  | .ok (some i) => startAt s i
  | .ok none =>
    if s.tbl.length < maxEntries then
      startAt { s with tbl := s.tbl ++ [(u30 l, ⟨0, 0, false, 0⟩)] } s.tbl.length
    else (.error .index, s)

/-- `_stop_timer` — logger.py:172-196. -/
def stopTimer (l : Label) (s : TState) : Out :=
  match find s.tbl l with
  | .error e => (.error e, s)
  | .ok none => (.error .value, s)
  | .ok (some i) =>
    match s.tbl[i]? with
    | none => (.error .index, s)
    | some (k, v) =>
      if v.status then
        (.ok (), { s with tbl := s.tbl.set i (k, ⟨v.call, v.time + (s.now - v.start_time), false, 0⟩) })
      else (.error .value, s)

/-- `reset_timer` — logger.py:244-264. -/
def resetTimer (l : Label) (s : TState) : Out :=
  match find s.tbl l with
  | .error e => (.error e, s)
  | .ok none => (.error .value, s)
  | .ok (some i) =>
    match s.tbl[i]? with
    | none => (.error .index, s)
    | some (k, v) => (.ok (), { s with tbl := s.tbl.set i (k, ⟨0, 0, false, v.start_time⟩) })

/-- `delete_timer` — logger.py:266-284. -/
def deleteTimer (l : Label) (s : TState) : Out :=
  match find s.tbl l with
  | .error e => (.error e, s)
  | .ok none => (.error .value, s)
  | .ok (some i) => (.ok (), { s with tbl := removeAt s.tbl i })

/-- What calling code does: let time pass, raise, continue, catch, call a decorated function, use the timers directly.
Every execution of a Python program is such a finite tree. -/
inductive Prog
  | work (d : ℚ)
  | raise (e : PyErr)
  | seq (p q : Prog)
  | tryExcept (p q : Prog)
  | timed (l : Label) (p : Prog)
  | start (l : Label)
  | stop (l : Label)
  | reset (l : Label)
  | delete (l : Label)

/-- The decorator `time` (`call_func`, logger.py:223-240: start, `try` the function, `finally` stop) and the control flow
around it. -/
def run : Prog → TState → Out
  | .work d, s => (.ok (), { s with now := s.now + d })
  | .raise e, s => (.error e, s)
  | .seq p q, s =>
    match run p s with
    | (.ok (), s') => run q s'
    | (.error e, s') => (.error e, s')
  | .tryExcept p q, s =>
    match run p s with
    | (.ok (), s') => (.ok (), s')
    | (.error _, s') => run q s'
  | .timed l p, s =>
    if s.enabled then
      match startTimer l s with
      | (.error e, s1) => (.error e, s1)
      | (.ok (), s1) =>
        match run p s1 with
        | (r, s2) =>
          if s2.enabled then
            match stopTimer l s2 with
            | (.error e, s3) => (.error e, s3)
            | (.ok (), s3) => (r, s3)
          else (r, s2)
    else run p s
  | .start l, s => startTimer l s
  | .stop l, s => stopTimer l s
  | .reset l, s => resetTimer l s
  | .delete l, s => deleteTimer l s

/-- `add_to_counter` — logger.py:344-357. -/
def addToCounter (l : Label) (val : ℤ) (t : Table ℤ) : Except PyErr Unit × Table ℤ :=
  match find t l with
  | .error e => (.error e, t)
  | .ok (some i) =>
    match t[i]? with
    | none => (.error .index, t)
    | some (k, v) => (.ok (), t.set i (k, v + val))
  | .ok none =>
    if t.length < maxEntries then (.ok (), (t ++ [(u30 l, 0)]).set t.length (u30 l, 0 + val))
    else (.error .index, t)

/-- `clear_counter` — logger.py:359-366. -/
def clearCounter (l : Label) (t : Table ℤ) : Except PyErr Unit × Table ℤ :=
  match find t l with
  | .error e => (.error e, t)
  | .ok none => (.error .value, t)
  | .ok (some i) =>
    match t[i]? with
    | none => (.error .index, t)
    | some (k, _) => (.ok (), t.set i (k, 0))

/-- `delete_counter` — logger.py:368-375. -/
def deleteCounter (l : Label) (t : Table ℤ) : Except PyErr Unit × Table ℤ :=
  match find t l with
  | .error e => (.error e, t)
  | .ok none => (.error .value, t)
  | .ok (some i) => (.ok (), removeAt t i)

end Verif.Logger
