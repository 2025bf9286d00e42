import Verif.Model.SCF
import Verif.Model.Nonloc
import Verif.Model.Wavefun

/-!
# Model of the exchange-correlation output of `scf(..., ret_vxc=True)`

/repo/src/qtm/dft/scf.py:544-561. Arithmetic is exact. Wavefunctions have one component (`is_noncolin=False`).
-/

namespace Verif.VxcOut

open Verif.FFT Verif.Nonloc Verif.Wavefun Verif.Containers Verif.SCF

/-- `psi_r_allbands[iband]` as an array over the grid — scf.py:551-553. -/
noncomputable def bandR (drv : Driver) (d : Dims) (idx : List ℕ) (st : DrvState ℂ) (c : Fin idx.length → ℂ) : Arr ℂ where
  shape := [d.size]
  get := fun i => if h : i.getD 0 0 < d.size then wfR drv d idx st c ⟨i.getD 0 0, h⟩ else 0

/-- `sum((v_xc * psi_r.get_density())).integrate_unitcell()`, real part — scf.py:554-555. `v_xc` has `ns` components (2 with spin), the density
one, so numpy repeats it; `sum` adds the components up. -/
noncomputable def entry (drv : Driver) (d : Dims) (idx : List ℕ) (st : DrvState ℂ) (dv : ℝ) (ns : ℕ) (vxc : Fin ns → Fin d.size → ℝ)
    (c : Fin idx.length → ℂ) : Except PyErr ℝ := do
  let den ← getDensity [] 1 d.size dv (bandR drv d idx st c) true
  pure ((∑ r : Fin d.size, ∑ s, (vxc s r : ℂ) * den.get [0, r]) * dv).re

/-- The wavefunctions of one k-point: `kswfn[s]` are the coefficients of the bands of spin component `s`. -/
structure KWfn where
  idx : List ℕ
  st : DrvState ℂ
  evc : List (List (Fin idx.length → ℂ))

/-- `calculate_vxc_data` — scf.py:546-557: a row for each k-point of the process' own group, `kswfn[0]` only. -/
noncomputable def vxcData (drv : Driver) (d : Dims) (dv : ℝ) (ns : ℕ) (vxc : Fin ns → Fin d.size → ℝ) (kgrp : List KWfn) :
    Except PyErr (List (List ℝ)) :=
  kgrp.mapM fun k => match k.evc with
    | [] => .error .index
    | bands :: _ => bands.mapM (entry drv d k.idx k.st dv ns vxc)

/-- The energies returned with `ret_vxc=True`: `en.xc` is set again, from the density at the end of the run — scf.py:548, 560. -/
noncomputable def enOut {s n : ℕ} {W V M : Type} (e : Env s n W V M) (retVxc : Bool) (res : Res s n W M) : Energy :=
  if retVxc then { res.st.en with xc := e.xc res.st.rho } else res.st.en

end Verif.VxcOut
