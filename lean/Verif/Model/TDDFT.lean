import Mathlib.Analysis.Normed.Algebra.MatrixExponential
import Mathlib.LinearAlgebra.Matrix.NonsingularInverse
import Verif.Model.Nonloc

/-!
# Model of the real-time TDDFT module (/repo/src/qtm/tddft_gamma)

One (spin-unpolarised) Γ-point wavefunction object; bands are propagated independently, so one band is modelled. Exact complex
arithmetic. `scipy.linalg.expm` is the matrix exponential, `numpy.linalg.inv` the inverse (`LinAlgError` if singular), and
`scipy.integrate.simpson` an abstract linear functional.
-/

namespace Verif.TDDFT

open scoped ComplexConjugate
open Verif.FFT (Driver Dims DrvState)
open Verif.Nonloc (Proj wfR wfG)

/-! ## Taylor expansion -/

/-- State of the order loop — expoper/taylor.py:60-84: `psi` holds `H^n ψ`, `prop` the accumulated result, `fac` the factor. -/
structure TaylorState (E : Type*) where
  psi : E
  prop : E
  fac : ℂ

/-- One pass of the loop — taylor.py:73-84. -/
noncomputable def taylorIter {E : Type*} [AddCommGroup E] [Module ℂ E] (H : E → E) (dt : ℝ) (s : TaylorState E) (iorder : ℕ) :
    TaylorState E :=
  let hpsi := H s.psi
  let fac := s.fac * (-Complex.I * dt / (iorder + 1))
  { psi := hpsi, prop := s.prop + fac • hpsi, fac := fac }

/-- `TaylorExp.prop_psi` on one spin component — taylor.py:57-86. -/
noncomputable def taylorProp {E : Type*} [AddCommGroup E] [Module ℂ E] (H : E → E) (dt : ℝ) (order : ℕ) (psi : E) : E :=
  ((List.range order).foldl (taylorIter H dt) { psi := psi, prop := psi, fac := 1 }).prop

/-- `TaylorExp.__init__` — taylor.py:28-33. -/
def taylorInit (order : ℤ) : Except PyErr ℤ := if order < 1 then .error .value else .ok order

/-- `TaylorExp.prop_psi`, control flow — taylor.py:50-57: non-collinear runs return without writing the output, spin-polarised
runs call `set_idxspin`, which raises (expoper/base.py:34-35; a plain `Exception`, modelled as `runtime`). -/
noncomputable def taylorPropPsi {E : Type*} [AddCommGroup E] [Module ℂ E] (H : E → E) (dt : ℝ) (order : ℕ) (isSpin isNoncolin : Bool)
    (psi out : E) : Except PyErr E :=
  if isNoncolin then .ok out
  else if isSpin then .error .runtime
  else .ok (taylorProp H dt order psi)

/-! ## Split operator -/

/-- Projectors of one species as an `n × p` matrix (columns `vkb_i`). -/
def projMat {n : ℕ} (P : Proj n) : Matrix (Fin n) (Fin P.num) ℂ := Matrix.of fun j i => P.vkb i j

/-- `dij` of one species. -/
def dijMat {n : ℕ} (P : Proj n) : Matrix (Fin P.num) (Fin P.num) ℂ := Matrix.of fun i i' => P.dij i i'

open scoped Matrix in
/-- `l_exp_dij_halfstep` for one species — expoper/splitoper.py:37-45. -/
noncomputable def expDij {n : ℕ} (P : Proj n) (dt : ℝ) : Except PyErr (Matrix (Fin P.num) (Fin P.num) ℂ) :=
  let ovl := (projMat P)ᴴ * projMat P
  if ovl.det = 0 then .error .linalg
  else .ok (ovl⁻¹ * (NormedSpace.exp ((-(1 / 2) * Complex.I * dt : ℂ) • (ovl * dijMat P)) - 1))

open scoped Matrix in
/-- One species of `oper_nl` — splitoper.py:67-69. -/
noncomputable def operNl {n : ℕ} (P : Proj n) (E : Matrix (Fin P.num) (Fin P.num) ℂ) (psi : Fin n → ℂ) : Fin n → ℂ :=
  psi + (projMat P) *ᵥ (E *ᵥ ((projMat P)ᴴ *ᵥ psi))

/-- `oper_ke` — splitoper.py:47, 57-60. -/
noncomputable def operKe {n : ℕ} (ke : Fin n → ℝ) (dt : ℝ) (psi : Fin n → ℂ) : Fin n → ℂ :=
  fun j => Complex.exp (-(1 / 2) * Complex.I * dt * ke j) * psi j

/-- `update_vloc` and `oper_vloc` — splitoper.py:50-55, 71-74: the exponent carries the number of grid points because the
potential handed over is divided by it (propagate.py:68); the un-normalised transforms multiply the result by that number. -/
noncomputable def operVloc (drv : Driver) (d : Dims) (idx : List ℕ) (st : DrvState ℂ) (dt : ℝ) (vloc : Fin d.size → ℂ)
    (psi : Fin idx.length → ℂ) : Fin idx.length → ℂ :=
  wfG drv d idx st (fun r => wfR drv d idx st psi r * Complex.exp (-Complex.I * dt * d.size * vloc r))

/-- `SplitOper.prop_psi` with the factors as functions: kinetic half step, non-local half steps in order, local full step,
non-local half steps in reverse order, kinetic half step — splitoper.py:76-82. -/
def splitSeq {E : Type*} (ke : E → E) (nl : List (E → E)) (v : E → E) (psi : E) : E :=
  let a := ke psi
  let b := nl.foldl (fun x f => f x) a
  let c := v b
  let e := nl.reverse.foldl (fun x f => f x) c
  ke e

/-! ## Enforced time reversal step -/

/-- Wavefunction objects: contents by identity, and which object `wfn_gamma[0][0]` currently is. -/
structure Objs (E : Type*) where
  heap : ℕ → E
  next : ℕ
  cur : ℕ

/-- How `prop_psi(l_psi, l_prop_psi)` treats the two objects. -/
inductive ExpKind
  /-- `TaylorExp`: writes a fresh array into the output object (taylor.py:86). -/
  | taylor
  /-- `SplitOper`: `l_prop_psi[:] = l_psi` puts the input *object* into the output list, then works in place
  (splitoper.py:77). -/
  | split
  deriving DecidableEq

/-- `prop_psi(wfn_gamma_prev, wfn_gamma[0])` where `wfn_gamma_prev[0]` is object `p`; `U` is the evolution it computes. -/
def propPsi {E : Type*} (kind : ExpKind) (U : E → E) (s : Objs E) (p : ℕ) : Objs E :=
  match kind with
  | .taylor => { s with heap := Function.update s.heap s.cur (U (s.heap p)) }
  | .split => { s with heap := Function.update s.heap p (U (s.heap p)), cur := p }

/-- `compute_rho` of the current object: normalises it in place and returns the density — dft/kswfn.py:142-157. -/
def computeRho {E R : Type*} (nrm : E → E) (dens : E → R) (s : Objs E) : Objs E × R :=
  let s' := { s with heap := Function.update s.heap s.cur (nrm (s.heap s.cur)) }
  (s', dens (s'.heap s'.cur))

/-- `prop_step` of prop/etrs.py:12-79. `evolve v` is the propagation with local potential `v` over one time step, `avg` the mean of
two densities. (`normalize_rho` of this module does nothing, etrs.py:8-9.) -/
def etrsStep {E R V : Type*} (kind : ExpKind) (nrm : E → E) (dens : E → R) (pot : R → V) (avg : R → R → R) (evolve : V → E → E)
    (s : Objs E) : Objs E :=
  let p := s.next
  let s1 : Objs E := { s with heap := Function.update s.heap p (s.heap s.cur), next := s.next + 1 }
  let (s2, rho) := computeRho nrm dens s1
  let s3 := propPsi kind (evolve (pot rho)) s2 p
  let (s4, rhoPred) := computeRho nrm dens s3
  let s5 := propPsi kind (evolve (pot (avg rho rhoPred))) s4 p
  (computeRho nrm dens s5).1

/-- `prop_step` of prop/splitoper.py:21-50: kinetic and non-local half steps, density of the (normalised) intermediate state, local
step with its potential, half steps in reverse, density (which normalises the final state). -/
def splitStep {E R V : Type*} (nrm : E → E) (dens : E → R) (pot : R → V) (ke : E → E) (nl : List (E → E)) (v : V → E → E) (psi : E) : E :=
  let a := nrm (nl.foldl (fun x f => f x) (ke psi))
  let b := v (pot (dens a)) a
  nrm (ke (nl.reverse.foldl (fun x f => f x) b))

/-! ## `propagate` and the dipole driver -/

/-- Method selection in `propagate` — propagate.py:73-106. -/
def selectMethods (expMethod propMethod : String) : Except PyErr (ExpKind × Bool) :=
  let e : Except PyErr ExpKind :=
    if expMethod = "taylor" then .ok .taylor else if expMethod = "splitoper" then .ok .split else .error .value
  match e with
  | .error x => .error x
  | .ok k =>
    if propMethod = "etrs" then .ok (k, true)
    else if propMethod = "splitoper" then if expMethod ≠ "splitoper" then .error .value else .ok (k, false)
    else .error .value

/-- Files written: the list of `(istep, number of saved rows)` — optical.py:87-121, 124-127 and propagate.py:124. The initial call passes the
user's `write_freq`; the propagation loop calls `dipole_updater(istep, rho)`, so there the default 10 is used. -/
def savesOf (numstep : ℕ) (writeFreq : ℤ) : List (ℤ × ℕ) :=
  let one := fun (istep : ℤ) (wf : ℤ) => if wf > 0 ∧ istep % wf = 0 then [(istep, (istep + 1).toNat)] else []
  one (-1) writeFreq ++ (List.range numstep).flatMap fun i : ℕ => one i 10

/-- Rows of `dip_t` written, in order — optical.py:117, 127 and propagate.py:118-125. -/
def rowsOf (numstep : ℕ) : List ℕ := [0] ++ (List.range numstep).map fun i => i + 1

/-! ## `dipole_spectrum` -/

/-- Damping function chosen — optical.py:212-226: the second component is the damping factor used (`none` for `poly`). -/
noncomputable def dampChoice (dampFunc : Option String) (dampFac : Option ℝ) (propTime : ℝ) : Except PyErr (String × Option ℝ) :=
  let f := if dampFac.isNone then some "poly" else dampFunc
  match f with
  | some "poly" => .ok ("poly", none)
  | some "exp" => match dampFac with
    | none => .ok ("exp", some (-Real.log (1 / 10 ^ 4) / propTime))
    | some x => if x < 0 then .error .value else .ok ("exp", some x)
  | some "gauss" => match dampFac with
    | none => .ok ("gauss", some (Real.sqrt (-Real.log (1 / 10 ^ 4)) / propTime))
    | some x => if x < 0 then .error .value else .ok ("gauss", some x)
  | _ => .error .value

/-- Weight at time `t` — optical.py:228-235. -/
noncomputable def dampWeight (c : String × Option ℝ) (propTime t : ℝ) : ℝ :=
  if c.1 = "poly" then 1 - 3 * (t / propTime) ^ 2 + 2 * (t / propTime) ^ 3
  else if c.1 = "exp" then Real.exp (-(c.2.getD 0 * t))
  else Real.exp (-(c.2.getD 0 * t) ^ 2)

/-- One energy of `dipole_spectrum` for one direction — optical.py:237-244; `quad` is `scipy.integrate.simpson` over the time
samples. -/
noncomputable def spectrumAt (quad : (ℕ → ℂ) → ℂ) (c : String × Option ℝ) (numstep : ℕ) (dt : ℝ) (dip : ℕ → ℂ) (en : ℝ) : ℂ :=
  quad fun i => dip i * (dampWeight c (numstep * dt) (i * dt) : ℂ) * -Complex.I * (Real.sin (en * (i * dt)) : ℂ)

end Verif.TDDFT
