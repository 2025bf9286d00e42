import Mathlib.Analysis.SpecialFunctions.Gaussian.GaussianIntegral
import Mathlib.Analysis.SpecialFunctions.Log.NegMulLog
import Mathlib.MeasureTheory.Integral.IntervalIntegral.Basic
import Verif.Model.Py

/-!
# Model of the occupation numbers (/repo/src/qtm/dft/occup)

Floats are real numbers. A calculation is a list of k-point groups; every group holds its k-points, each with one list
of eigenvalues per spin. Collective operations over the group roots (`kroot_intra`) combine the groups' values.
-/

namespace Verif.Occup

/-- What the occupation routines read of a `KSWfn`: weight and eigenvalues — /repo/src/qtm/dft/kswfn.py:77-108. -/
structure Wfn where
  weight : ℝ
  evl : List ℝ

/-- `np.amin` of a 1D array (`ValueError` if empty). -/
def amin : List ℝ → Except PyErr ℝ
  | [] => .error .value
  | x :: t => .ok (t.foldl min x)

/-- `np.amax` of a 1D array (`ValueError` if empty). -/
def amax : List ℝ → Except PyErr ℝ
  | [] => .error .value
  | x :: t => .ok (t.foldl max x)

/-! ## Fixed occupations -/

/-- The electron number as passed by the caller: the routine asserts that it is an `int`. -/
inductive NumEl
  | int (n : ℕ)
  | float (x : ℝ)

/-- `occ[:numfill] = 1; occ[numfill:] = 0` — /repo/src/qtm/dft/occup/fixed.py:24-25. -/
def fixedOcc (numbnd numfill : ℕ) : List ℝ := (List.range numbnd).map fun i => if i < numfill then 1 else 0

/-- What the group roots return: the highest filled level and, if there are empty bands, the lowest empty one —
fixed.py:32-40. `bands` is `numbnd` of the first wavefunction of the group, `grp` the group's eigenvalue lists. -/
noncomputable def fixedLevels (numfill : ℕ) (groups : List (List (List ℝ))) : Except PyErr (ℝ × Option ℝ) := do
  let maxs ← groups.mapM fun g => do
    let l ← g.mapM fun evl => amax (evl.take numfill)
    amax l
  let hi ← amax maxs
  let numbnd := ((groups.headD []).headD []).length
  if numfill < numbnd then do
    let mins ← groups.mapM fun g => do
      let l ← g.mapM fun evl => amin (evl.drop numfill)
      amin l
    let lo ← amin mins
    pure (hi, some lo)
  else pure (hi, none)

/-- `fixed.compute_occ` — /repo/src/qtm/dft/occup/fixed.py:11-42. `groups` lists, per k-point group, the k-points, each a
list of wavefunctions (one per spin). Returns the occupations (same layout) and the levels the group roots get; the
other processes of a group return `(None, None)`. -/
noncomputable def fixed (groups : List (List (List Wfn))) (numel : NumEl) :
    Except PyErr (List (List (List ℝ)) × ℝ × Option ℝ) :=
  match numel with
  | .float _ => .error .assertion
  | .int n =>
    if n % 2 ≠ 0 then .error .assertion
    else if ¬ ∀ g ∈ groups, ∀ k ∈ g, k.length = 1 then .error .assertion
    else
      let numfill := n / 2
      let occ := groups.map fun g => g.map fun k => fixedOcc (k.headD ⟨0, []⟩).evl.length numfill
      match fixedLevels numfill (groups.map fun g => g.map fun k => (k.headD ⟨0, []⟩).evl) with
      | .error e => .error e
      | .ok (hi, lo) => .ok (occ, hi, lo)

/-! ## Smearing -/

/-- `scipy.special.erf` -/
noncomputable def erf (x : ℝ) : ℝ := 2 / √Real.pi * ∫ t in (0 : ℝ)..x, Real.exp (-t ^ 2)

/-- `scipy.special.erfc` -/
noncomputable def erfc (x : ℝ) : ℝ := 1 - erf x

/-- `scipy.special.xlogy(x, x)`: `x log x`, 0 at 0. -/
noncomputable def xlogx (x : ℝ) : ℝ := x * Real.log x

/-- Smearing types — /repo/src/qtm/dft/occup/smear.py:44-48. -/
inductive Typ
  | gauss
  | fd
  | mv
  deriving DecidableEq, Repr

/-- `gauss_occ`, `fd_occ`, `mv_occ` — smear.py:17-18, 25-26, 34-36. -/
noncomputable def Typ.occ : Typ → ℝ → ℝ
  | .gauss, f => 0.5 * erfc f
  | .fd, f => 1 / (1 + Real.exp f)
  | .mv, f =>
    let g := -(f + 1 / √2)
    0.5 * (erf g + 1) + (1 / √(2 * Real.pi)) * Real.exp (-g ^ 2)

/-- `gauss_en`, `fd_en`, `mv_en` — smear.py:21-22, 29-31, 39-41. -/
noncomputable def Typ.en : Typ → ℝ → ℝ
  | .gauss, f => -0.5 * Real.exp (-f ^ 2) / √Real.pi
  | .fd, f => xlogx (1 / (1 + Real.exp f)) + xlogx (1 - 1 / (1 + Real.exp f))
  | .mv, f =>
    let g := -(f + 1 / √2)
    1 / √(2 * Real.pi) * g * Real.exp (-g ^ 2)

/-- `SMEAR_THRESHOLD` — smear.py:13. -/
def thr : ℝ := 50

/-- `EPS` — smear.py:14. -/
noncomputable def eps : ℝ := 1e-10

/-- `_compute_occ` of one level — smear.py:51-58 (for `degauss ≠ 0`). -/
noncomputable def levelOcc (t : Typ) (deg mu e : ℝ) : ℝ :=
  let f := (e - mu) / deg
  if f < -thr then 1 else if |f| ≤ thr then t.occ f else 0

/-- `_compute_en` of one wavefunction — smear.py:61-65. -/
noncomputable def wfnEn (t : Typ) (deg mu : ℝ) (evl : List ℝ) : ℝ :=
  deg * ((evl.map fun e => (e - mu) / deg).filter (fun f => decide (|f| ≤ thr)) |>.map t.en).sum

/-- `compute_numel` — smear.py:102-106: per group the weighted sum over its wavefunctions, then `allreduce`. -/
noncomputable def count (t : Typ) (deg : ℝ) (groups : List (List Wfn)) (mu : ℝ) : ℝ :=
  (groups.map fun g => (g.map fun w => w.weight * (w.evl.map (levelOcc t deg mu)).sum).sum).sum

/-- The bisection loop — smear.py:109-118: `some mu` if it ends within `fuel` further iterations. -/
noncomputable def bisect (N : ℝ → ℝ) (numel : ℝ) : ℕ → ℝ → ℝ → Option ℝ
  | 0, lo, hi =>
    let g := (lo + hi) / 2
    if eps < |numel - N g| then none else some g
  | fuel + 1, lo, hi =>
    let g := (lo + hi) / 2
    if eps < |numel - N g| then
      if 0 < numel - N g then bisect N numel fuel g hi else bisect N numel fuel lo g
    else some g

/-- The result of `smear.compute_occ`: Fermi level, smearing energy and the occupations of every wavefunction. -/
structure SmearOut where
  fermi : ℝ
  smear : ℝ
  occ : List (List (List ℝ))

/-- `smear.compute_occ` — smear.py:68-134, ending within `fuel` bisection steps (`none`: still searching). All
wavefunctions have the same number of bands (`np.stack`, smear.py:90). -/
noncomputable def smear (t : Typ) (deg : ℝ) (groups : List (List Wfn)) (numel : ℝ) (fuel : ℕ) :
    Except PyErr (Option SmearOut) := do
  let mins ← groups.mapM fun g => amin (g.flatMap (·.evl))
  let maxs ← groups.mapM fun g => amax (g.flatMap (·.evl))
  let lo ← amin mins
  let hi ← amax maxs
  match bisect (count t deg groups) numel fuel lo hi with
  | none => pure none
  | some mu => pure (some
      { fermi := mu
        smear := (groups.map fun g => (g.map fun w => w.weight * wfnEn t deg mu w.evl).sum).sum
        occ := groups.map fun g => g.map fun w => w.evl.map (levelOcc t deg mu) })

end Verif.Occup
