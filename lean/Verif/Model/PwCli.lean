import Verif.Model.DFTComm
import Verif.Model.Fmt

/-!
# Model of the command line of `python -m qtm.interfaces.qe.pw` and of the process layout it makes

/repo/src/qtm/interfaces/qe/pw.py:29-100. Counts are natural numbers; signs, blanks and underscores, which Python's `int` accepts, are not modelled.
-/

namespace Verif.PwCli

open Verif.QEInp Verif.Fmt Verif.DFTComm

/-- `fetch_arg(argstr)` — pw.py:34-41: the word after the first occurrence in `sys.argv`. -/
def fetchArg (argv : List Str) (arg : Str) : Option Str :=
  if arg ∈ argv then
    let i := argv.idxOf arg
    if argv.length > i + 1 then some (argv.getD (i + 1) []) else none
  else none

/-- `int(s)` for a string of digits; anything else is a `ValueError`. -/
def castInt (s : Str) : Except PyErr ℕ := if s ≠ [] ∧ s.all isDigit then .ok (natVal s) else .error .value

/-- `fetch_arg_long_short_default` — pw.py:43-59 -/
def fetchLSD {α : Type} (argv : List Str) (long short : Str) (dflt : α) (cast : Str → Except PyErr α) : Except PyErr α :=
  match fetchArg argv ('-' :: short) with
  | some s => cast s
  | none =>
    match fetchArg argv ('-' :: long) with
    | some s => cast s
    | none => .ok dflt

/-- What the program takes from the command line. -/
structure Opts where
  filename : Option Str
  npools : ℕ
  ntg : ℕ
  nband : ℕ

/-- pw.py:27-30, 61-67 -/
def parseArgs (argv : List Str) : Except PyErr Opts := do
  let f ← fetchLSD argv "in".toList "in".toList (if argv.length > 1 then some (argv.getD 1 []) else none) (fun s => .ok (some s))
  let k ← fetchLSD argv "npools".toList "nk".toList 1 castInt
  let t ← fetchLSD argv "ntg".toList "nt".toList 1 castInt
  let b ← fetchLSD argv "nband".toList "nb".toList 1 castInt
  pure ⟨f, k, t, b⟩

/-- `pwgrp_size = comm_world.size // npools // nbandgroups` — pw.py:79 -/
def pwSize (size : ℕ) (o : Opts) : Except PyErr ℕ :=
  if o.npools = 0 ∨ o.nband = 0 then .error .zeroDivision else .ok (size / o.npools / o.nband)

/-- `DFTCommMod(comm_world, npools, pwgrp_size)` on process `rank` — pw.py:86 -/
def layout (size : ℕ) (o : Opts) (rank : ℕ) : Except PyErr Layout :=
  match pwSize size o with
  | .error e => .error e
  | .ok P => dftComm size (some o.npools) P rank

/-- The processes over which the plane waves of the density (and, through scf.py:273-275, those of the wavefunctions) are distributed — pw.py:97-100: all of them, unless every process is a
plane-wave group of its own. -/
def basisMembers (size : ℕ) (L : Layout) (rank : ℕ) : List ℕ := if L.nPwgrp = size then [rank] else List.range size

end Verif.PwCli
