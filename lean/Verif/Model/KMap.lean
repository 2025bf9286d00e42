import Verif.Model.ScfDist
import Verif.Model.ScfGrp

/-!
# Model: the same calculation with another list of k-points

`/repo/src/qtm/dft/scf.py` called with a list of k-points that holds the same points in another order, or some of them several times.
-/

namespace Verif.KMap

open Verif.FFT (Dims)
open Verif.ScfDist (Calc Ops)

variable {d : Dims} {idx : List ℕ} {ns : ℕ}

/-- The calculation `C` with the k-points `π 0, π 1, ...` of the weights `weight` — scf.py:268-299; `occ` are the occupations for that list. -/
def remap (C : Calc d idx ns) (nk : ℕ) (π : Fin nk → Fin C.nk) (weight : Fin nk → ℝ) (occ : (Fin nk → Fin ns → ℕ → ℝ) → Except PyErr ((Fin nk → Fin ns → ℕ → ℝ) × ℝ)) : Calc d idx ns where
  gs := C.gs
  norm2 := C.norm2
  g := C.g
  dv := C.dv
  vol := C.vol
  numel := C.numel
  nan := C.nan
  exch := C.exch
  corr := C.corr
  core := C.core
  vion := C.vion
  ewald := C.ewald
  isSmear := C.isSmear
  symmRho := C.symmRho
  symm := C.symm
  convThr := C.convThr
  diagoInit := C.diagoInit
  nk := nk
  kp i := { C.kp (π i) with weight := weight i }
  nb := C.nb
  numwork := C.numwork
  maxiter := C.maxiter
  eigh := C.eigh
  occ := occ
  method := C.method
  mix := C.mix
  dev := C.dev

end Verif.KMap
