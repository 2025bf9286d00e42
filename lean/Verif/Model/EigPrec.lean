import Mathlib.Data.Complex.Basic
import Mathlib.Data.Real.Sqrt
import Verif.Model.Py

/-!
# Model: preconditioner of the eigensolvers and the wrappers of external solvers

`dft/eigsolve/davidson.py` (`apply_g_psi`), `dft/eigsolve/primme_eigsh.py`, `dft/eigsolve/scipy_eigsh.py`.
Arithmetic is exact; the diagonal of the Hamiltonian and the eigenvalues are real numbers (the code keeps the diagonal as complex numbers of zero imaginary part).
-/

namespace Verif.EigPrec

open Verif

/-- `ham_diag = ke_gk + vnl_diag; ham_diag[:size_g] += vloc_g0[0]; ham_diag[size_g:] += vloc_g0[1]` if non-collinear — davidson.py:65-68. -/
noncomputable def hamDiag (n : ℕ) (noncolin : Bool) (ke vnl : ℕ → ℝ) (vloc0 vloc1 : ℝ) (g : ℕ) : ℝ :=
  ke g + vnl g + (if g < n then vloc0 else if noncolin then vloc1 else 0)

/-- `denom` for one component — davidson.py:72-76 (and primme_eigsh.py:88-90): `x = 2 (ham_diag - evl)`, `denom = 0.5 (1 + x + sqrt(1 + (x - 1)^2)) / 2`. -/
noncomputable def denom (h e : ℝ) : ℝ :=
  (1 / 2) * (1 + 2 * (h - e) + Real.sqrt (1 + (2 * (h - e) - 1) ^ 2)) / 2

/-- `wfn_ /= denom * 2` for one band — davidson.py:77. -/
noncomputable def applyBand (ham : ℕ → ℝ) (e : ℝ) (psi : List ℂ) : List ℂ :=
  (List.range psi.length).map fun g => psi.getD g 0 / ((denom (ham g) e * 2 : ℝ) : ℂ)

/-- `for wfn_, evl_ in zip(l_wfn, l_evl)`: bands beyond the shorter list are left as they are — davidson.py:73. -/
noncomputable def applyGPsi (ham : ℕ → ℝ) : List (List ℂ) → List ℝ → List (List ℂ)
  | psi :: ps, e :: es => applyBand ham e psi :: applyGPsi ham ps es
  | ps, _ => ps

/-- What an external eigensolver (`scipy.sparse.linalg.eigsh`, `primme.eigsh`) is given and returns: it may call the operator on vectors of the announced length any number of times; the result is the values, the matrix with one column per
value and the number of calls. -/
structure Ext where
  run : (n : ℕ) → (op : (Fin n → ℂ) → Except PyErr (Fin n → ℂ)) → (k : ℕ) → Except PyErr ((Fin k → ℝ) × (Fin n → Fin k → ℂ) × ℕ)

/-- The state of a `KSWfn` the solvers change: `evl`, `evc_gk`. -/
structure State (w k : ℕ) where
  evl : Fin k → ℝ
  evc : Fin k → Fin w → ℂ

/-- `ksham_matvec` — scipy_eigsh.py:38-44: `WavefunG(psi)` raises `ValueError` for a vector whose length is not that of the wavefunctions. -/
def matvec {n w : ℕ} (hpsi : (Fin w → ℂ) → Fin w → ℂ) (psi : Fin n → ℂ) : Except PyErr (Fin n → ℂ) :=
  if h : n = w then .ok fun i => hpsi (fun j => psi (Fin.cast h.symm j)) (Fin.cast h i) else .error .value

open Classical in
/-- `solve` — scipy_eigsh.py:16-56. `n = gkspc.size_g`, `w` the length of one wavefunction (`n`, or `2 n` if non-collinear); `evl[:], evc_gk[:] = eigsh(...)` where `evc_gk = kswfn.evc_gk.data.T`; the second assignment needs `n = w`. -/
noncomputable def scipySolve {w k : ℕ} (ext : Ext) (ranks n : ℕ) (hpsi : (Fin w → ℂ) → Fin w → ℂ) (thr : ℝ) : Except PyErr (State w k × ℕ) := do
  if ranks ≠ 1 then throw .assertion
  if ¬ 0 < thr then throw .assertion
  let r ← ext.run n (matvec hpsi) k
  if h : w = n then return (⟨r.1, fun b g => r.2.1 (Fin.cast h g) b⟩, r.2.2) else throw .value

open Classical in
/-- `solve` — primme_eigsh.py:31-147: the same with `ImportError` when the package is absent; the threshold is passed to the solver (`tol`). Simplified: the operator is taken to reject vectors of another length, as in scipy_eigsh.py (primme_eigsh.py:62-69 does not check, the final assignment does). -/
noncomputable def primmeSolve {w k : ℕ} (installed : Bool) (ext : ℝ → Ext) (ranks n : ℕ) (hpsi : (Fin w → ℂ) → Fin w → ℂ) (thr : ℝ) : Except PyErr (State w k × ℕ) := do
  if !installed then throw .import_
  if ranks ≠ 1 then throw .assertion
  if ¬ 0 < thr then throw .assertion
  let r ← (ext thr).run n (matvec hpsi) k
  if h : w = n then return (⟨r.1, fun b g => r.2.1 (Fin.cast h g) b⟩, r.2.2) else throw .value

end Verif.EigPrec
