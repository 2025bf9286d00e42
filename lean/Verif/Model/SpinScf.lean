import Verif.Model.ScfDist
import Verif.Model.Occup
import Verif.Model.Symm

/-!
# Model: the same calculation with `is_spin=True`

`/repo/src/qtm/dft/scf.py` called with the same crystal, k-points and settings, once with `is_spin=False` and once with `is_spin=True`.
-/

namespace Verif.SpinScf

open Verif.FFT (Dims)
open Verif.PotDist (PointFunc)
open Verif.ScfDist (Calc KPt)
open Verif.Mixing (Dens)

variable {d : Dims} {idx : List ℕ}

/-- The k-point of a run with spin — scf.py:285-294: `KSWfn(gkspc, k_weight, ...)` for either spin, where a run without spin has `KSWfn(gkspc, 2 * k_weight, ...)`. -/
noncomputable def kSpin (k : KPt) : KPt := { k with weight := k.weight / 2 }

/-- The calculation `C` with `is_spin=True` — scf.py:84-231, 264-299: functionals, symmetriser and occupations for two components; all else as before. -/
noncomputable def spin (C : Calc d idx 1) (exch corr : PointFunc 2) (symm : Dens 2 idx.length → Dens 2 idx.length)
    (occ : (Fin C.nk → Fin 2 → ℕ → ℝ) → Except PyErr ((Fin C.nk → Fin 2 → ℕ → ℝ) × ℝ)) : Calc d idx 2 where
  gs := C.gs
  norm2 := C.norm2
  g := C.g
  dv := C.dv
  vol := C.vol
  numel := C.numel
  nan := C.nan
  exch := exch
  corr := corr
  core := C.core
  vion := C.vion
  ewald := C.ewald
  isSmear := C.isSmear
  symmRho := C.symmRho
  symm := symm
  convThr := C.convThr
  diagoInit := C.diagoInit
  nk := C.nk
  kp i := kSpin (C.kp i)
  nb := C.nb
  numwork := C.numwork
  maxiter := C.maxiter
  eigh := C.eigh
  occ := occ
  method := C.method
  mix := C.mix
  dev := C.dev

/-- The wavefunctions of one k-point as `smear.compute_occ` sees them in a run with spin — smear.py:83-92: two of the weight `k_weight`. -/
noncomputable def wfnSpin (w : Occup.Wfn) : List Occup.Wfn := [⟨w.weight / 2, w.evl⟩, ⟨w.weight / 2, w.evl⟩]

/-- `symmetrize` of a density with `ns` components — symmetrize_field.py:119-148: every component on its own (`Symm.symmetrize`). -/
noncomputable def symmDens {ns n m : ℕ} (ops : Fin (m + 1) → Symm.SymOp) (sh : GSpace.Shape) (key : GSpace.GVec → ℤ) (gs : List GSpace.GVec) (garbage : ℕ → ℂ) (rho : Dens ns n) : Dens ns n :=
  fun s j => Symm.symmetrize ops sh key gs garbage (fun i => if h : i < n then rho s ⟨i, h⟩ else 0) j

end Verif.SpinScf
