import Verif.Model.TDDFT

/-!
# Model of the time loop of `propagate` (/repo/src/qtm/tddft_gamma/propagate.py)
-/

namespace Verif.TDDFT

/-- What the loop computes with: `nrm` and `dens` are the two effects of `compute_rho` (kswfn.py:142-157, times `k_weight` and `to_g`), `pot` is `compute_pot_local` (propagate.py:60-70),
`avg` the mean of two densities (etrs.py:67), `nrmRho` the `normalize_rho` of prop/splitoper.py:12-13, `taylor` the `prop_psi` of `TaylorExp`, and `ke`, `nl`, `vl` the factors of `SplitOper`. -/
structure Ops (E R V : Type*) where
  nrm : E → E
  dens : E → R
  pot : R → V
  avg : R → R → R
  nrmRho : R → R
  taylor : V → E → E
  ke : E → E
  nl : List (E → E)
  vl : V → E → E

/-- `PropOper.prop_psi` after `update_vloc(v)` — expoper/taylor.py:57-86, expoper/splitoper.py:76-82. -/
def Ops.evolve {E R V : Type*} (o : Ops E R V) (kind : ExpKind) (v : V) : E → E :=
  match kind with
  | .taylor => o.taylor v
  | .split => splitSeq o.ke o.nl (o.vl v)

/-- The loop with `prop/etrs.py` — propagate.py:116-125: a step, then the density (which normalises the orbitals) is handed to `dipole_updater`. Second component: the densities handed over, in order. -/
def etrsRun {E R V : Type*} (o : Ops E R V) (kind : ExpKind) : ℕ → Objs E → Objs E × List R
  | 0, s => (s, [])
  | n + 1, s =>
    let r := computeRho o.nrm o.dens (etrsStep kind o.nrm o.dens o.pot o.avg (o.evolve kind) s)
    let t := etrsRun o kind n r.1
    (t.1, r.2 :: t.2)

/-- The loop with `prop/splitoper.py`, which works on the given object only — propagate.py:116-125. -/
def splitRun {E R V : Type*} (o : Ops E R V) : ℕ → E → E × List R
  | 0, x => (x, [])
  | n + 1, x =>
    let y := o.nrm (splitStep o.nrm o.dens (fun r => o.pot (o.nrmRho r)) o.ke o.nl o.vl x)
    let t := splitRun o n y
    (t.1, o.dens y :: t.2)

/-- `propagate` for orbitals without spin polarisation — propagate.py:20-125. The potential of the starting density goes to the constructor of the propagator (propagate.py:111-114) and is replaced before it is used
(etrs.py:60-61, prop/splitoper.py:41); the copy of the starting density (propagate.py:116) is passed to `prop_step`, which overwrites its own reference (etrs.py:56, prop/splitoper.py:50). -/
def propagate {E R V : Type*} (o : Ops E R V) (expMethod propMethod : String) (numstep : ℕ) (rhoStart : R) (psi : E) : Except PyErr (E × List R) :=
  match selectMethods expMethod propMethod with
  | .error e => .error e
  | .ok (kind, etrs) =>
    let _vStart := o.pot rhoStart
    if etrs then
      let r := etrsRun o kind numstep ⟨fun _ => psi, 1, 0⟩
      .ok (r.1.heap r.1.cur, r.2)
    else .ok (splitRun o numstep psi)

end Verif.TDDFT
