import Mathlib.Data.Real.Basic
import Mathlib.Data.List.Basic
import Mathlib.Logic.Function.Basic
import Mathlib.Logic.Relation
import Verif.Model.Py

/-!
# Model of the argument phase and the final report of `scf` on several processes

/repo/src/qtm/dft/scf.py:108-250 (after `check_system`, see `Verif.CheckArgs`) and 525-541, /repo/src/qtm/io_utils/dft_printers.py:160-217. A process runs a program whose only effects are
collective calls on the image's communicator. The message passing library is modelled as in `Verif.CheckArgs`: the `i`-th calls of the processes belong together, the root never waits in a broadcast
unless the implementation synchronises (`sync`), other processes wait for the root; a synchronising call completes when all processes have reached it; calls of different kinds never complete.
-/

namespace Verif.ScfArgs

/-- Python values of arguments. `cfg i`: a `DFTConfig`, `other i`: an object of another type. -/
inductive Val
  | int (z : ℤ)
  | bool (b : Bool)
  | float (x : ℝ)
  | str (s : String)
  | none
  | cfg (i : ℕ)
  | other (i : ℕ)

/-- A program of one process: `bcast v k` calls `comm.bcast(v)` and continues with the root's value; `sync l k` calls a synchronising operation (`0`: barrier, `1`: the all-to-all exchange of a
distributed Fourier transform, `2`: `Allreduce`). -/
inductive Prog (α : Type)
  | ret (a : α)
  | err (e : PyErr)
  | bcast (v : Val) (k : Val → Prog α)
  | sync (l : ℕ) (k : Prog α)

variable {α β : Type}

def Prog.bind : Prog α → (α → Prog β) → Prog β
  | .ret a, f => f a
  | .err e, _ => .err e
  | .bcast v k, f => .bcast v fun x => (k x).bind f
  | .sync l k, f => .sync l (k.bind f)

instance : Monad Prog where
  pure := .ret
  bind := Prog.bind

/-- What a process contributes to a collective call. -/
inductive Msg
  | val (v : Val)
  | sync (l : ℕ)

/-- Calls that fit together. -/
def Msg.compat : Msg → Msg → Prop
  | .val _, .val _ => True
  | .sync a, .sync b => a = b
  | _, _ => False

/-- One process: the calls it has completed, and what is left. -/
structure Proc (α : Type) where
  hist : List Msg := []
  prog : Prog α

/-- The process' contribution to its `i`-th call, if it has reached it. -/
def Proc.offer (p : Proc α) (i : ℕ) : Option Msg :=
  if i < p.hist.length then p.hist[i]?
  else if i = p.hist.length then
    match p.prog with
    | .bcast v _ => some (.val v)
    | .sync l _ => some (.sync l)
    | _ => none
  else none

variable {n : ℕ}

abbrev State (n : ℕ) (α : Type) := Fin (n + 1) → Proc α

/-- One step of one process. -/
inductive Step (snc : Bool) : State n α → State n α → Prop
  | bcast (s : State n α) (r : Fin (n + 1)) (v : Val) (k : Val → Prog α) (w : Val) (hp : (s r).prog = .bcast v k) (h0 : (s 0).offer (s r).hist.length = some (.val w))
      (hs : snc = true → ∀ q, ∃ m, (s q).offer (s r).hist.length = some m ∧ (Msg.val v).compat m) :
      Step snc s (Function.update s r ⟨(s r).hist ++ [.val v], k w⟩)
  | sync (s : State n α) (r : Fin (n + 1)) (l : ℕ) (k : Prog α) (hp : (s r).prog = .sync l k)
      (hs : ∀ q, ∃ m, (s q).offer (s r).hist.length = some m ∧ (Msg.sync l).compat m) :
      Step snc s (Function.update s r ⟨(s r).hist ++ [.sync l], k⟩)

/-- States that can occur when process `r` runs `P r`. -/
def Reachable (snc : Bool) (P : Fin (n + 1) → Prog α) : State n α → Prop := Relation.ReflTransGen (Step snc) fun r => { prog := P r }

/-! ## The argument phase of `scf` -/

/-- `rho_start` — scf.py:139-175: a density (is its G-space `grho`? shape), `None`, a sequence (are its entries numbers?), something that is not iterable. -/
inductive Rho
  | field (own : Bool) (shape : List ℕ)
  | none
  | mags (ok : Bool)
  | bad

/-- The arguments of one process; `sameG`: `grho is gwfn`; `printer`: `iter_printer` (`None`, or a callable with or without `__name__`). -/
structure Args where
  sameG : Bool := true
  numbnd : Val
  isSpin : Val
  isNoncolin : Val := .bool false
  symmRho : Val := .bool true
  rho : Rho := .none
  libxc : Val := .none
  occ : Val := .str "smear"
  smear : Val := .str "gauss"
  eTemp : Val := .float (1 / 1000)
  convThr : Val := .float (1 / 2000000)
  maxiter : Val := .int 100
  diagoThr : Val := .float (1 / 200000)
  printer : Option Bool := none
  mixBeta : Val := .float (7 / 10)
  mixDim : Val := .int 8
  config : Val := .none
  retVxc : Bool := false
  nk : ℕ := 1
  nkgrp : ℕ := 1

/-- Result of `git log` — dft_printers.py:66-83: there is no `git`, it fails, it prints a line with two words, or something else. -/
inductive Git
  | missing | fails | prints | odd

/-- What `scf` continues with. -/
structure Eff where
  numbnd : ℤ
  isSpin : Bool
  symmRho : Bool
  libxc : Val
  occ : String
  smear : Val
  eTemp : ℝ
  convThr : ℝ
  maxiter : ℤ
  diagoThr : ℝ
  mixBeta : ℝ
  mixDim : ℤ
  config : ℕ
  retVxc : Bool

/-- `comm.bcast(v)` -/
def bc (v : Val) : Prog Val := .bcast v .ret

/-- `assert p`, or `if not p: raise e`. -/
def need (p : Prop) [Decidable p] (e : PyErr) : Prog Unit := if p then .ret () else .err e

/-- `assert isinstance(v, int)` (`True` and `False` are integers). -/
def asInt : Val → Prog ℤ
  | .int z => .ret z
  | .bool b => .ret (if b then 1 else 0)
  | _ => .err .assertion

/-- `assert isinstance(v, bool)` -/
def asBool : Val → Prog Bool
  | .bool b => .ret b
  | _ => .err .assertion

/-- `assert isinstance(v, float)` -/
def asFloat : Val → Prog ℝ
  | .float x => .ret x
  | _ => .err .assertion

/-- `assert occ_typ in ["fixed", "smear"]` -/
def asOcc : Val → Prog String
  | .str s => if s = "fixed" ∨ s = "smear" then .ret s else .err .assertion
  | _ => .err .assertion

/-- `if occ_typ == "smear": assert smear_typ in ["gauss", "fd", "mv"]` -/
def checkSmear (occ : String) (v : Val) : Prog Unit :=
  if occ = "smear" then
    match v with
    | .str s => need (s = "gauss" ∨ s = "fd" ∨ s = "mv") .assertion
    | _ => .err .assertion
  else .ret ()

/-- `if dftconfig is None: dftconfig = DFTConfig()` (`fresh` is the new object) and the assertion — scf.py:206-209. The result of `comm.bcast(dftconfig)` is discarded. -/
def ownConfig (fresh : ℕ) (v : Val) : Prog ℕ :=
  match v with
  | .none => .bcast (.cfg fresh) fun _ => .ret fresh
  | .cfg i => .bcast (.cfg i) fun _ => .ret i
  | v => .bcast v fun _ => .err .assertion

/-- scf.py:139-175; the density of atoms is not modelled here (`Verif.SCF`). -/
def checkRho (spin : Bool) : Rho → Prog Unit
  | .field own shape => if !own then .err .assertion else need (shape = [if spin then 2 else 1]) .value
  | .none => if spin then .err .value else .ret ()
  | .mags ok => if spin ∧ !ok then .err .type else .ret ()
  | .bad => if spin then .err .type else .ret ()

/-- `print_scf_parameters` — dft_printers.py:160-217, with `print_project_git_info` (66-83), which only catches a failing `git`. -/
def printParameters (git : Git) (printer : Option Bool) : Prog Unit :=
  match git with
  | .missing => .err .os
  | .odd => .err .value
  | _ => match printer with
    | some true => .ret ()
    | _ => .err .attribute

/-- `if dftcomm.image_comm.rank == 0` — scf.py:223. -/
def rootPrints (root : Bool) (git : Git) (printer : Option Bool) : Prog Unit := if root then printParameters git printer else .ret ()

/-- The `with` block of scf.py:116-211 on one process (after `check_system`), with the barrier at its end. -/
noncomputable def scfPhase (fresh : ℕ) (a : Args) : Prog Eff := do
  need (a.sameG = true) .notImplemented
  let numbnd ← asInt (← bc a.numbnd)
  need (0 < numbnd) .assertion
  let isSpin ← asBool (← bc a.isSpin)
  let isNoncolin ← asBool (← bc a.isNoncolin)
  need (isNoncolin = false) .notImplemented
  let symmRho ← asBool (← bc a.symmRho)
  checkRho isSpin a.rho
  let libxc ← bc a.libxc
  let occ ← asOcc (← bc a.occ)
  let smear ← bc a.smear
  checkSmear occ smear
  let eTemp ← asFloat (← bc a.eTemp)
  need (0 ≤ eTemp) .assertion
  let convThr ← asFloat (← bc a.convThr)
  need (0 < convThr) .assertion
  let maxiter ← asInt (← bc a.maxiter)
  need (0 ≤ maxiter) .assertion
  let diagoThr ← asFloat (← bc a.diagoThr)
  need (0 < diagoThr) .assertion
  let mixBeta ← asFloat (← bc a.mixBeta)
  need (0 < mixBeta ∧ mixBeta ≤ 1) .assertion
  let mixDim ← asInt (← bc a.mixDim)
  need (0 < mixDim) .assertion
  let config ← ownConfig fresh a.config
  .sync 0 (.ret ())
  .ret ⟨numbnd, isSpin, symmRho, libxc, occ, smear, eTemp, convThr, maxiter, diagoThr, mixBeta, mixDim, config, a.retVxc⟩

/-- scf.py:116-250 on one process, up to the barrier that begins the calculation: the `with` block, the check of the number of k-points, the output of the root, the barrier. -/
noncomputable def scfArgs (git : Git) (fresh : ℕ) (root : Bool) (a : Args) : Prog Eff := do
  let e ← scfPhase fresh a
  need (a.nkgrp ≤ a.nk) .assertion
  rootPrints root git a.printer
  .sync 0 (.ret e)

/-! ## The report of a converged run -/

/-- scf.py:525-541 and the end of `with image_comm` (250): the root of the image computes the magnetisation of a spin-polarised run. For plane waves distributed over the `n + 1` processes (one k- and
band-group), `to_r()` exchanges sticks between all of them (mpi/gspace.py:166-190), twice (both spin components), and the two integrals are reduced over all of them. -/
def report (distributed spin root : Bool) : Prog Unit :=
  if root ∧ spin ∧ distributed then .sync 1 (.sync 1 (.sync 2 (.sync 2 (.sync 0 (.ret ()))))) else .sync 0 (.ret ())

end Verif.ScfArgs
