import Mathlib.Data.Complex.Basic
import Mathlib.Analysis.Complex.Norm
import Verif.Model.Py
import Verif.Model.GSpace

/-!
# Model of the BerkeleyGW file interface: dielectric matrices and wavefunctions

/repo/src/qtm/interfaces/bgw/epsmat_read_write.py, h5_utils.py, wfn2py.py. An HDF5 dataset is the array it was created from (bytes, types and the
header groups are not modelled); numbers are exact.
-/

namespace Verif.BGW

open Verif.GSpace (GVec at' gather)
open scoped ComplexConjugate

/-- A matrix with its shape; entries outside the shape are never looked at. -/
structure Mat where
  rows : ℕ
  cols : ℕ
  e : ℕ → ℕ → ℂ

/-- `cplx_to_real` of one entry — h5_utils.py:27-31. -/
def cplxToReal (z : ℂ) : ℝ × ℝ := (z.re, z.im)

/-- `real_to_cplx` of one entry — h5_utils.py:34-38. -/
noncomputable def realToCplx (p : ℝ × ℝ) : ℂ := (p.1 : ℂ) + Complex.I * (p.2 : ℂ)

/-- `np.allclose(x, 0)` of one number: `|x - 0| ≤ 1e-8 + 1e-5 * |0|`. -/
noncomputable def closeZero (z : ℂ) : Bool := by
  classical
  exact decide (‖z‖ ≤ 1 / 100000000)

/-- `max([max(mat.shape) for mat in mats])` — epsmat_read_write.py:140 (`ValueError` for no matrices). -/
def maxDim : List Mat → Except PyErr ℕ
  | [] => .error .value
  | m :: ms => .ok ((ms.map fun m => max m.rows m.cols).foldl max (max m.rows m.cols))

/-- `np.pad(mat, ((0, N - rows), (0, N - cols)))` — epsmat_read_write.py:148-156. -/
def pad (N : ℕ) (m : Mat) : Mat := ⟨N, N, fun i j => if i < m.rows ∧ j < m.cols then m.e i j else 0⟩

/-- What is stored in `mats/matrix`: `N × N` pairs of real numbers for every matrix. -/
structure Stored where
  n : ℕ
  mats : List (ℕ → ℕ → ℝ × ℝ)

/-- `write_mats` — epsmat_read_write.py:122-171. -/
def writeMats (ms : List Mat) : Except PyErr Stored :=
  match maxDim ms with
  | .error e => .error e
  | .ok N => .ok ⟨N, ms.map fun m i j => cplxToReal ((pad N m).e i j)⟩

/-- `mats/matrix-diagonal` — epsmat_read_write.py:166-169: component `c` (0 real, 1 imaginary) of diagonal entry `i`
(`np.diagonal(mat.T, axis1=1, axis2=2)` of the `(N, N, 2)` array). -/
def diagonal (s : Stored) (k : ℕ) : List (List ℝ) :=
  let m := s.mats.getD k fun _ _ => (0, 0)
  [(List.range s.n).map fun i => (m i i).1, (List.range s.n).map fun i => (m i i).2]

/-- The loop `for i in range(n - 1, -1, -1): if zero(i): drop it else: break`. -/
def dropTail (zero : ℕ → Bool) : ℕ → ℕ
  | 0 => 0
  | n + 1 => if zero n then dropTail zero n else n + 1

/-- `np.allclose(arr[i, :], 0)` — epsmat_read_write.py:103. -/
noncomputable def rowZero (m : Mat) (i : ℕ) : Bool := (List.range m.cols).all fun j => closeZero (m.e i j)

/-- `np.allclose(arr[..., j], 0)` — epsmat_read_write.py:110. -/
noncomputable def colZero (m : Mat) (j : ℕ) : Bool := (List.range m.rows).all fun i => closeZero (m.e i j)

/-- `unpad_array` — epsmat_read_write.py:100-119. -/
noncomputable def unpad (m : Mat) : Mat :=
  let a : Mat := { m with rows := dropTail (rowZero m) m.rows }
  let b : Mat := { a with cols := dropTail (colZero a) a.cols }
  let d := min b.rows b.cols
  { b with rows := d, cols := d }

/-- `read_mats` — epsmat_read_write.py:174-187. -/
noncomputable def readMats (s : Stored) : List Mat :=
  s.mats.map fun a => unpad ⟨s.n, s.n, fun i j => conj (realToCplx (a i j))⟩

/-! ## Wavefunctions (wfn2py.py) -/

/-- Comparison of `np.lexsort([g[2], g[1], g[0]])`: by the first, then the second, then the third component. -/
def lexG (a b : GVec) : Bool :=
  decide (a.1 < b.1 ∨ (a.1 = b.1 ∧ (a.2.1 < b.2.1 ∨ (a.2.1 = b.2.1 ∧ a.2.2 ≤ b.2.2))))

/-- `np.lexsort([g[:, 2], g[:, 1], g[:, 0]])` — wfn2py.py:195-196, 249-250, 336-337. -/
def lexsort (l : List GVec) : List ℕ :=
  (List.range l.length).mergeSort fun i j => lexG (at' l i) (at' l j)

/-- `idx = np.empty(n); idx[isort_py] = np.arange(n)[isort_bgw]` — wfn2py.py:203-204, 251-252, 338-339: later assignments win; unassigned
positions hold whatever was in memory (`junk`). -/
def scatter (n : ℕ) (junk : ℕ → ℕ) (pos val : List ℕ) : List ℕ :=
  (List.range n).map fun i => ((pos.zip val).reverse.find? fun p => p.1 = i).elim (junk i) Prod.snd

/-- `idxbgw2pw` — wfn2py.py:246-256, with the assertion that both lists hold the same vectors. -/
def bgw2pw (junk : ℕ → ℕ) (py bgw : List GVec) : Except PyErr (List ℕ) :=
  if gather bgw (lexsort bgw) = gather py (lexsort py) then .ok (scatter py.length junk (lexsort py) (lexsort bgw))
  else .error .assertion

/-- `np.split(arr, cuts)` at increasing positions. -/
def splitAt' {α : Type*} (l : List α) (from_ : ℕ) : List ℕ → List (List α)
  | [] => [l.drop from_]
  | c :: cs => pySlice l from_ c :: splitAt' l c cs

/-- `np.cumsum` with a start value. -/
def cumsumFrom (s : ℕ) : List ℕ → List ℕ
  | [] => []
  | n :: ns => (s + n) :: cumsumFrom (s + n) ns

/-- `np.split(arr, np.cumsum(ngk[:-1]))` — wfn2py.py:242-244, 313-324; h5_utils.py:139-145. -/
def splitK {α : Type*} (l : List α) (ngk : List ℕ) : List (List α) := splitAt' l 0 (cumsumFrom 0 ngk.dropLast)

/-- One coefficient: `1j * np.conj(view("c16"))` — wfn2py.py:317-321 — of the stored pair (real, imaginary). -/
noncomputable def loadCoeff (p : ℝ × ℝ) : ℂ := Complex.I * conj (realToCplx p)

/-- `coeffs[:, 0, :, 1] + 1j * coeffs[:, 0, :, 0]` — h5_utils.py:141, h5_to_np_dict.py:52. -/
noncomputable def parseCoeff (p : ℝ × ℝ) : ℂ := (p.2 : ℂ) + Complex.I * (p.1 : ℂ)

/-- The coefficients of one band in all k-points — wfn2py.py:317-345: split by k-point, then reordered to the order of `gk.g_cryst`. -/
noncomputable def loadBand (junk : ℕ → ℕ) (pys : List (List GVec)) (gvecs : List GVec) (coeffs : List (ℝ × ℝ)) (ngk : List ℕ) :
    Except PyErr (List (List ℂ)) :=
  (List.range pys.length).mapM fun k => do
    let idx ← bgw2pw junk (pys.getD k []) ((splitK gvecs ngk).getD k [])
    pure (gather ((splitK (coeffs.map loadCoeff) ngk).getD k []) idx)

/-! ## Atoms (wfn2py.py:111-126) -/

/-- `np.argsort(atyp)` (any sorting order among equal types; modelled by the stable one). -/
def argsortZ (l : List ℤ) : List ℕ := (List.range l.length).mergeSort fun i j => decide (l.getD i 0 ≤ l.getD j 0)

/-- `np.unique(atyp, return_counts=True)`. -/
def unique (l : List ℤ) : List (ℤ × ℕ) := ((l.mergeSort (· ≤ ·)).dedup).map fun t => (t, l.count t)

/-- `l_typ` with `np.split(apos[isort], np.cumsum(l_counts))` — wfn2py.py:112-114, 121-126 (the last, empty piece is not used). -/
def species {α : Type*} [Inhabited α] (atyp : List ℤ) (apos : List α) : List (ℤ × List α) :=
  let u := unique atyp
  (u.map Prod.fst).zip (splitAt' (gather apos (argsortZ atyp)) 0 (cumsumFrom 0 (u.map Prod.snd)))

end Verif.BGW
