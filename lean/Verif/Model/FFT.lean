import Mathlib.Algebra.BigOperators.Group.Finset.Basic
import Mathlib.Algebra.Field.Defs
import Mathlib.Analysis.SpecialFunctions.Trigonometric.Basic
import Verif.Model.Py

/-!
# Model of the FFT drivers (/repo/src/qtm/fft)

A C-contiguous array is a function from flat positions to scalars; only the positions below its size
mean anything. Floating-point numbers are modelled by a field (`ℂ` for the discrete Fourier
transform). The FFT libraries are modelled by what they compute: the DFT sums.
-/

namespace Verif.FFT

variable {K : Type*} [Field K]

/-- 1D transform kernels along the three axes: `w k x` multiplies element `x` in output `k`. -/
structure Kern (K : Type*) where
  wx : ℕ → ℕ → K
  wy : ℕ → ℕ → K
  wz : ℕ → ℕ → K

/-- FFT grid dimensions. -/
structure Dims where
  nx : ℕ
  ny : ℕ
  nz : ℕ
  deriving DecidableEq, Repr

/-- number of points of a (y, z) plane -/
def Dims.plane (d : Dims) : ℕ := d.ny * d.nz

/-- `np.prod(shape)` -/
def Dims.size (d : Dims) : ℕ := d.nx * d.ny * d.nz

/-- flat C-order position of `(x, y, z)` -/
def Dims.flat (d : Dims) (x y z : ℕ) : ℕ := x * d.plane + (y * d.nz + z)

/-- coordinates of a flat position (`np.unravel_index`, C order) -/
def Dims.ix (d : Dims) (f : ℕ) : ℕ := f / d.plane
/-- see `Dims.ix` -/
def Dims.iy (d : Dims) (f : ℕ) : ℕ := f / d.nz % d.ny
/-- see `Dims.ix` -/
def Dims.iz (d : Dims) (f : ℕ) : ℕ := f % d.nz

/-- A 3D transform over the axes (0, 1, 2) — `FFTBackend(shape, (0, 1, 2))`,
/repo/src/qtm/fft/full.py:28-31, /repo/src/qtm/fft/backend/numpy_.py:24-33. -/
def xform3 (d : Dims) (w : Kern K) (buf : ℕ → K) : ℕ → K := fun f =>
  ∑ x ∈ Finset.range d.nx, ∑ y ∈ Finset.range d.ny, ∑ z ∈ Finset.range d.nz,
    w.wx (d.ix f) x * (w.wy (d.iy f) y * w.wz (d.iz f) z) * buf (d.flat x y z)

/-- A transform over the axes (1, 2) of an array of shape `(*, ny, nz)`
— `FFTBackend((nx, ny, nz), (1, 2))`, /repo/src/qtm/fft/sticks.py:57. -/
def xformYZ (d : Dims) (w : Kern K) (buf : ℕ → K) : ℕ → K := fun f =>
  ∑ y ∈ Finset.range d.ny, ∑ z ∈ Finset.range d.nz,
    w.wy (d.iy f) y * w.wz (d.iz f) z * buf (d.flat (d.ix f) y z)

/-- A transform over axis 1 of an array of shape `(numsticks, nx)`
— `FFTBackend((numsticks, nx), (1,))`, /repo/src/qtm/fft/sticks.py:48. -/
def xformX (d : Dims) (w : Kern K) (buf : ℕ → K) : ℕ → K := fun j =>
  ∑ x ∈ Finset.range d.nx, w.wx (j % d.nx) x * buf (j / d.nx * d.nx + x)

/-- Factor applied by `ifft(normalise_idft)` over `n` points
— /repo/src/qtm/fft/backend/numpy_.py:27-33 (`"backward"` divides by the number of transformed points,
`"forward"` does not scale the inverse), pyfftw_.py:65-70. -/
noncomputable def scale (norm : Bool) (n : ℕ) : K := if norm then ((n : K))⁻¹ else 1

/-- `arr.put(idx, vals)` / `arr[idx] = vals` on a flat array: sequential assignment. -/
def put {α : Type*} (buf : ℕ → α) (idx : List ℕ) (vals : List α) : ℕ → α :=
  (idx.zip vals).foldl (fun b p => Function.update b p.1 p.2) buf

/-- `arr.take(idx)` on a flat array. -/
def take {α : Type*} (buf : ℕ → α) (idx : List ℕ) : List α := idx.map buf

/-! ## The full driver -/

/-- Work arrays of `FFT3DFull` (one `FFTBackend` worker). -/
structure FullState (K : Type*) where
  inpFwd : ℕ → K
  inpBwd : ℕ → K

/-- `FFT3DFull.r2g` — /repo/src/qtm/fft/full.py:34-37. -/
def fullR2g (d : Dims) (fwd : Kern K) (idx : List ℕ) (st : FullState K) (arr : ℕ → K) :
    FullState K × List K :=
  let st := { st with inpFwd := arr }
  (st, take (xform3 d fwd st.inpFwd) idx)

/-- `FFT3DFull.g2r` — /repo/src/qtm/fft/full.py:39-45. -/
noncomputable def fullG2r (d : Dims) (bwd : Kern K) (norm : Bool) (idx : List ℕ) (st : FullState K)
    (arr : List K) : FullState K × (ℕ → K) :=
  let st := { st with inpBwd := fun _ => 0 }                    -- full.py:40
  let st := { st with inpBwd := put st.inpBwd idx arr }         -- full.py:41
  (st, fun f => scale norm d.size * xform3 d bwd st.inpBwd f)   -- full.py:43

/-! ## The stick driver -/

/-- `iyz = iy * nz + iz` of a flat index — /repo/src/qtm/fft/sticks.py:32-37. -/
def stickOf (d : Dims) (f : ℕ) : ℕ := d.iy f * d.nz + d.iz f

/-- `iyz_sticks = np.unique(iyz)` — /repo/src/qtm/fft/sticks.py:38: sorted, without duplicates. -/
def sticks (d : Dims) (idx : List ℕ) : List ℕ := ((idx.map (stickOf d)).mergeSort (· ≤ ·)).dedup

/-- `np.searchsorted(sorted, v)` (left): the number of elements below `v`. -/
def searchsorted (l : List ℕ) (v : ℕ) : ℕ := (l.filter fun a => a < v).length

/-- `g2sticks = nx * np.searchsorted(iyz_sticks, iyz) + ix` — /repo/src/qtm/fft/sticks.py:45. -/
def g2sticks (d : Dims) (idx : List ℕ) : List ℕ :=
  idx.map fun f => d.nx * searchsorted (sticks d idx) (stickOf d f) + d.ix f

/-- `sticks2full = iy_sticks * nz + iz_sticks` with `iy_sticks = iyz_sticks // nz`,
`iz_sticks = iyz_sticks % nz` — /repo/src/qtm/fft/sticks.py:40-41, 55. -/
def sticks2full (d : Dims) (idx : List ℕ) : List ℕ :=
  (sticks d idx).map fun s => s / d.nz * d.nz + s % d.nz

/-- Work arrays of `FFT3DSticks`. -/
structure StickState (K : Type*) where
  xFwd : ℕ → K
  xBwd : ℕ → K
  yzFwd : ℕ → K
  yzBwd : ℕ → K

/-- `FFT3DSticks.r2g` — /repo/src/qtm/fft/sticks.py:61-68. `work_full` is the transposed `(ny*nz, nx)`
view of the transformed array; taking the rows `sticks2full` fills the `(numsticks, nx)` work array. -/
def stickR2g (d : Dims) (fwd : Kern K) (idx : List ℕ) (st : StickState K) (arr : ℕ → K) :
    StickState K × List K :=
  let st := { st with yzFwd := arr }
  let full := xformYZ d fwd st.yzFwd
  let s2f := sticks2full d idx
  let st := { st with xFwd := fun j =>
    if j < s2f.length * d.nx then full (j % d.nx * d.plane + s2f.getD (j / d.nx) 0) else st.xFwd j }
  (st, take (xformX d fwd st.xFwd) (g2sticks d idx))

/-- `FFT3DSticks.g2r` — /repo/src/qtm/fft/sticks.py:70-78. `work_full[sticks2full] = work_sticks`
assigns column after column of the `(nx, ny*nz)` array. -/
noncomputable def stickG2r (d : Dims) (bwd : Kern K) (norm : Bool) (idx : List ℕ) (st : StickState K)
    (arr : List K) : StickState K × (ℕ → K) :=
  let st := { st with xBwd := fun _ => 0 }                                    -- sticks.py:71
  let st := { st with yzBwd := fun _ => 0 }                                   -- sticks.py:72
  let st := { st with xBwd := put st.xBwd (g2sticks d idx) arr }              -- sticks.py:73
  let ws := fun j => scale norm d.nx * xformX d bwd st.xBwd j                 -- sticks.py:74
  let s2f := sticks2full d idx
  let full := (List.range s2f.length).foldl (fun b s => fun f =>              -- sticks.py:76-77
    if f % d.plane = s2f.getD s 0 ∧ f / d.plane < d.nx
    then ws (s * d.nx + f / d.plane) else b f) st.yzBwd
  let st := { st with yzBwd := full }
  (st, fun f => scale norm d.plane * xformYZ d bwd st.yzBwd f)                -- sticks.py:78

/-! ## Choosing a driver -/

/-- The two serial drivers — /repo/src/qtm/fft/backend/utils.py:9-14. -/
inductive Driver
  | full
  | sticks
  deriving DecidableEq, Repr

/-- Work arrays of a driver object (only the chosen driver's are used). -/
structure DrvState (K : Type*) where
  f : FullState K
  s : StickState K

/-- `fft.r2g` of the chosen driver. -/
def Driver.r2g (drv : Driver) (d : Dims) (fwd : Kern K) (idx : List ℕ) (st : DrvState K) (arr : ℕ → K) :
    DrvState K × List K :=
  match drv with
  | .full => let r := fullR2g d fwd idx st.f arr; ({ st with f := r.1 }, r.2)
  | .sticks => let r := stickR2g d fwd idx st.s arr; ({ st with s := r.1 }, r.2)

/-- `fft.g2r` of the chosen driver. -/
noncomputable def Driver.g2r (drv : Driver) (d : Dims) (bwd : Kern K) (norm : Bool) (idx : List ℕ)
    (st : DrvState K) (arr : List K) : DrvState K × (ℕ → K) :=
  match drv with
  | .full => let r := fullG2r d bwd norm idx st.f arr; ({ st with f := r.1 }, r.2)
  | .sticks => let r := stickG2r d bwd norm idx st.s arr; ({ st with s := r.1 }, r.2)

/-- A call on a driver object. -/
inductive Call (K : Type*)
  | r2g (arr : ℕ → K)
  | g2r (arr : List K)

/-- What a call writes to its output array. -/
inductive Result (K : Type*)
  | coeffs (c : List K)
  | grid (a : ℕ → K)

/-- Executing a call on a driver object. -/
noncomputable def Driver.exec (drv : Driver) (d : Dims) (fwd bwd : Kern K) (norm : Bool) (idx : List ℕ)
    (st : DrvState K) : Call K → DrvState K × Result K
  | .r2g arr => let r := drv.r2g d fwd idx st arr; (r.1, .coeffs r.2)
  | .g2r arr => let r := drv.g2r d bwd norm idx st arr; (r.1, .grid r.2)

/-- The driver object after a history of calls. -/
noncomputable def Driver.after (drv : Driver) (d : Dims) (fwd bwd : Kern K) (norm : Bool) (idx : List ℕ)
    (st : DrvState K) (hist : List (Call K)) : DrvState K :=
  hist.foldl (fun s c => (drv.exec d fwd bwd norm idx s c).1) st

/-! ## DFT kernels -/

/-- The discrete Fourier kernel: `exp(∓2πi kx/n)`, sign `-` forward (`fwd = true`), `+` backward. -/
noncomputable def dftKer (fwd : Bool) (n k x : ℕ) : ℂ :=
  Complex.exp ((if fwd then -1 else 1) * (2 * Real.pi * Complex.I) * (k * x) / n)

/-- The kernels used by all back-ends. -/
noncomputable def dftKern (fwd : Bool) (d : Dims) : Kern ℂ where
  wx := dftKer fwd d.nx
  wy := dftKer fwd d.ny
  wz := dftKer fwd d.nz

/-- `check_g_idxgrid` — /repo/src/qtm/fft/base.py:17-34: indices distinct and inside the grid. -/
def ValidIdx (d : Dims) (idx : List ℕ) : Prop := idx.Nodup ∧ ∀ f ∈ idx, f < d.size

end Verif.FFT
