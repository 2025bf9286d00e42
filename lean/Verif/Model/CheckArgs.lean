import Mathlib.Data.Real.Basic
import Mathlib.Data.List.Basic
import Mathlib.Data.List.Forall2
import Mathlib.Logic.Function.Basic
import Mathlib.Logic.Relation
import Verif.Model.Py
import Verif.Model.QEInp

/-!
# Model of the collective argument checks

/repo/src/qtm/mpi/check_args.py run by all processes of a communicator (rank `0` is the root), with the barriers of `with comm:`
(/repo/src/qtm/mpi/comm.py:159-188). Each process executes a list of items: a collective call whose reply (the root's data) has to pass a test, or a local
assertion. All exceptions are alike (`failed`). The message passing library is modelled as the MPI standard describes it: the `i`-th collective calls of the
processes belong together; the root never waits in a broadcast unless the implementation synchronises (`sync`); a broadcast completes at another process once the
root has reached it; a barrier completes when all processes have reached it. Calls of different kinds or different buffer sizes never complete (the standard leaves
them undefined).
-/

namespace Verif.CheckArgs

open Verif.QEInp (Str)

/-- Pickled objects. -/
inductive Obj
  | str (s : Str)
  | int (z : ℤ)
  | num (x : ℝ)
  | bool (b : Bool)
  | arr (l : List ℝ)

/-- What a process contributes to a collective call: nothing (barrier), an object (`bcast`), a buffer (`Bcast`). -/
inductive Msg
  | barrier
  | obj (v : Obj)
  | buf (l : List ℝ)

/-- Calls that fit together. -/
def Compat : Msg → Msg → Prop
  | .barrier, .barrier => True
  | .obj _, .obj _ => True
  | .buf a, .buf b => a.length = b.length
  | _, _ => False

inductive Item
  | ask (m : Msg) (test : Msg → Prop)
  | need (p : Prop)

/-- One process: what is left to do, the calls it has completed, and whether it has raised an exception. -/
structure Proc where
  todo : List Item
  hist : List Msg := []
  failed : Bool := false

/-- The process has returned. -/
def Proc.Returned (p : Proc) : Prop := p.todo = [] ∧ p.failed = false

/-- The process' contribution to its `i`-th collective call, if it has reached it. -/
def Proc.offer (p : Proc) (i : ℕ) : Option Msg :=
  if i < p.hist.length then p.hist[i]?
  else if i = p.hist.length ∧ p.failed = false then
    match p.todo with
    | .ask m _ :: _ => some m
    | _ => none
  else none

variable {n : ℕ}

abbrev State (n : ℕ) := Fin (n + 1) → Proc

/-- One step of one process; `sync`: broadcasts synchronise all processes. -/
inductive Step (sync : Bool) : State n → State n → Prop
  | pass (s : State n) (r : Fin (n + 1)) (p : Prop) (t : List Item) (hf : (s r).failed = false) (ht : (s r).todo = .need p :: t) (hp : p) :
      Step sync s (Function.update s r { s r with todo := t })
  | fail (s : State n) (r : Fin (n + 1)) (p : Prop) (t : List Item) (hf : (s r).failed = false) (ht : (s r).todo = .need p :: t) (hp : ¬ p) :
      Step sync s (Function.update s r { s r with failed := true })
  | comm (s : State n) (r : Fin (n + 1)) (m : Msg) (test : Msg → Prop) (t : List Item) (m0 : Msg) (hf : (s r).failed = false)
      (ht : (s r).todo = .ask m test :: t) (h0 : (s 0).offer (s r).hist.length = some m0) (hc : Compat m m0)
      (hs : m = .barrier ∨ sync = true → ∀ q, ∃ m', (s q).offer (s r).hist.length = some m' ∧ Compat m m') (hp : test m0) :
      Step sync s (Function.update s r { s r with todo := t, hist := (s r).hist ++ [m] })
  | commFail (s : State n) (r : Fin (n + 1)) (m : Msg) (test : Msg → Prop) (t : List Item) (m0 : Msg) (hf : (s r).failed = false)
      (ht : (s r).todo = .ask m test :: t) (h0 : (s 0).offer (s r).hist.length = some m0) (hc : Compat m m0)
      (hs : m = .barrier ∨ sync = true → ∀ q, ∃ m', (s q).offer (s r).hist.length = some m' ∧ Compat m m') (hp : ¬ test m0) :
      Step sync s (Function.update s r { s r with todo := t, hist := (s r).hist ++ [m], failed := true })

/-! ## The checks -/

/-- `np.allclose(a, b)` with the default tolerances. -/
def Allclose (a b : List ℝ) : Prop := List.Forall₂ (fun x y => |x - y| ≤ 1 / 10 ^ 8 + 1 / 10 ^ 5 * |y|) a b

/-- `comm.Bcast(copy)` followed by `np.allclose(own, copy)` — check_args.py:38-40, 62-64, 135-140. -/
def bufClose (l : List ℝ) : Item := .ask (.buf l) fun m => match m with
  | .buf b => Allclose l b
  | _ => False

/-- `x == comm.bcast(x)` — check_args.py:56-61. -/
def strEq (s : Str) : Item := .ask (.obj (.str s)) fun m => match m with
  | .obj (.str t) => s = t
  | _ => False

def intEq (z : ℤ) : Item := .ask (.obj (.int z)) fun m => match m with
  | .obj (.int t) => z = t
  | _ => False

def numEq (x : ℝ) : Item := .ask (.obj (.num x)) fun m => match m with
  | .obj (.num t) => x = t
  | _ => False

def boolEq (b : Bool) : Item := .ask (.obj (.bool b)) fun m => match m with
  | .obj (.bool t) => b = t
  | _ => False

/-- `abs(x - comm.bcast(x)) <= EPS` — check_args.py:42, 44, 86. -/
noncomputable def numClose (x : ℝ) : Item := .ask (.obj (.num x)) fun m => match m with
  | .obj (.num t) => |x - t| ≤ 1 / 10 ^ 8
  | _ => False

/-- `np.allclose(l, comm.bcast(l))` — check_args.py:85. -/
def arrClose (l : List ℝ) : Item := .ask (.obj (.arr l)) fun m => match m with
  | .obj (.arr b) => Allclose l b
  | _ => False

/-- Real lattice (`primvec` flattened). -/
structure Lat where
  primvec : List ℝ
  alat : ℝ

/-- One species; `pp`: name and check sum of the pseudopotential file, if there is one; `pos`: the flattened coordinates. -/
structure Species where
  label : Str
  valence : ℤ
  pp : Option (Str × Str)
  mass : Option ℝ
  pos : List ℝ

/-- `GSpace`: `latId` identifies its lattice object. -/
structure GSp where
  latId : ℕ
  recvec : List ℝ
  ecut : ℝ
  grid : ℤ × ℤ × ℤ
  dist : Bool

structure KL where
  latId : ℕ
  cryst : List ℝ
  weights : List ℝ

/-- The arguments of `check_system`; `recId`/`recvec`: the crystal's reciprocal lattice. -/
structure Sys where
  lat : Lat
  species : List Species
  recId : ℕ
  recvec : List ℝ
  grho : GSp
  gwfn : GSp
  kpts : KL

/-- `check_lattice` of a real lattice — check_args.py:34-46. -/
noncomputable def checkLattice (l : Lat) : List Item := [bufClose l.primvec, numClose l.alat]

/-- `check_basisatoms(comm, atoms)` — check_args.py:49-66: the flag `check_reallat` is `False` everywhere; the mass is broadcast only by processes that have one. -/
noncomputable def checkAtoms (a : Species) : List Item :=
  [boolEq false, strEq a.label, intEq a.valence]
  ++ (match a.pp with
    | none => [.need False]
    | some (f, m) => [strEq f, strEq m])
  ++ (match a.mass with
    | none => []
    | some x => [numEq x])
  ++ [bufClose a.pos]

/-- `check_crystal` — check_args.py:69-77. -/
noncomputable def checkCrystal (s : Sys) : List Item := checkLattice s.lat ++ s.species.flatMap checkAtoms

/-- `check_gspace` — check_args.py:80-101. -/
noncomputable def checkGSpace (g : GSp) : List Item :=
  [arrClose g.recvec, numClose g.ecut, intEq g.grid.1, intEq g.grid.2.1, intEq g.grid.2.2, boolEq g.dist]

/-- `check_kpts` — check_args.py:127-142. -/
def checkKpts (k : KL) : List Item := [boolEq false, bufClose k.cryst, bufClose k.weights]

/-- `Lattice.__eq__` — lattice.py:233-239. -/
def LatEq (a b : List ℝ) : Prop := (List.zipWith (fun x y => (x - y) ^ 2) a b).sum ≤ (1 / 10 ^ 5) ^ 2

/-- Body of the `with` block of `check_system` — check_args.py:150-163. -/
noncomputable def body (s : Sys) : List Item :=
  checkCrystal s ++ checkGSpace s.grho ++ [.need (LatEq s.grho.recvec s.recvec)] ++ checkGSpace s.gwfn ++ [.need (s.gwfn.latId = s.grho.latId)]
  ++ checkKpts s.kpts ++ [.need (s.kpts.latId = s.recId)]

/-- Barrier of `__enter__`/`__exit__` — comm.py:159-188. -/
def barrierItem : Item := .ask .barrier fun _ => True

/-- `check_system` — check_args.py:145-163. -/
noncomputable def checkSystem (s : Sys) : List Item := [barrierItem] ++ body s ++ [barrierItem]

/-- All processes are about to call `check_system`. -/
noncomputable def init (sys : Fin (n + 1) → Sys) : State n := fun r => { todo := checkSystem (sys r) }

/-- States that can occur. -/
def Reachable (sync : Bool) (sys : Fin (n + 1) → Sys) : State n → Prop := Relation.ReflTransGen (Step sync) (init sys)

end Verif.CheckArgs
