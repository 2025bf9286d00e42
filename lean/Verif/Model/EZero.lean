import Mathlib.Data.Complex.Basic
import Mathlib.Algebra.BigOperators.Group.List.Basic
import Verif.Model.Py

/-!
# Model: the mean of the local potential given to the eigensolver

`dft/scf.py`: the local potential is divided by the number of points of the wavefunctions' grid when it is made, and its sum over the points by the number of points of the density's grid before the solver is called.
-/

namespace Verif.EZero

/-- `vloc_g0` of a spin component, from the local potential `V` on the grid: `vloc /= np.prod(gwfn.grid_shape)` — /repo/src/qtm/dft/scf.py:345 — and `vloc_g0 = np.sum(vloc, axis=-1) / np.prod(grho.grid_shape)` — scf.py:474.
`wsize`, `rsize` are the two products. The value of line 346 is overwritten. -/
noncomputable def vlocG0 (V : List ℝ) (wsize rsize : ℕ) : ℝ := (V.map (· / (wsize : ℝ))).sum / rsize

end Verif.EZero
