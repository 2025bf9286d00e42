import Mathlib.Data.Int.Log
import Mathlib.Analysis.SpecialFunctions.Complex.Circle
import Mathlib.Analysis.SpecialFunctions.Trigonometric.Basic
import Mathlib.Algebra.Order.Round
import Mathlib.Data.Nat.Factorial.DoubleFactorial
import Verif.Model.FFT

/-!
# Model of the non-local pseudopotential generator (/repo/src/qtm/pseudo/nloc.py) and of the Kohn-Sham Hamiltonian
(/repo/src/qtm/dft/ksham.py)

Real arithmetic is exact. Spherical harmonics (`scipy.special.sph_harm_y`) are an abstract function.
-/

namespace Verif.Nonloc

open scoped ComplexConjugate

/-! ## Radial functions -/

/-- `f[0::2]`. -/
def everyOther {α : Type*} : List α → List α
  | [] => []
  | [a] => [a]
  | a :: _ :: l => a :: everyOther l

/-- `f[0:-2:2]` — nloc.py:181. -/
def sliceA {α : Type*} (f : List α) : List α := everyOther (f.take (f.length - 2))
/-- `f[1:-1:2]` — nloc.py:181. -/
def sliceB {α : Type*} (f : List α) : List α := everyOther ((f.take (f.length - 1)).drop 1)
/-- `f[2::2]` — nloc.py:181. -/
def sliceC {α : Type*} (f : List α) : List α := everyOther (f.drop 2)

/-- `simpson` inside `NonlocGenerator.__init__` — nloc.py:175-182: the three slices are added elementwise (a length mismatch
would raise `ValueError`). -/
noncomputable def simpson (f_r r_ab : List ℝ) : Except PyErr ℝ :=
  let f := List.zipWith (· * ·) f_r r_ab
  if (sliceA f).length = (sliceB f).length ∧ (sliceB f).length = (sliceC f).length then
    .ok (1 / 3 * (List.zipWith (· + ·) (List.zipWith (fun a b => a + 4 * b) (sliceA f) (sliceB f)) (sliceC f)).sum)
  else .error .value

/-- `semifact(n) = n (n-2) (n-4) …` — nloc.py:39-40. -/
def semifact (n : ℕ) : ℕ := Nat.doubleFactorial n

/-- `small_x_thr_fn` — nloc.py:31-36. -/
noncomputable def smallThr (n : ℕ) : ℝ :=
  if 2 < n then 0.05 * 2.5 ^ (n - 2) + 0.05 * (n - 3) else 0.05

/-- The series branch of `spherical_jn` — nloc.py:54-86. -/
noncomputable def jnSmall (n : ℕ) (x : ℝ) : ℝ :=
  let x2 := x ^ 2
  x ^ n / semifact (2 * n + 1) * (1 - x2 / 1 / 2 / (2 * n + 3) * (1 - x2 / 2 / 2 / (2 * n + 5) *
    (1 - x2 / 3 / 2 / (2 * n + 7) * (1 - x2 / 4 / 2 / (2 * n + 9)))))

/-- The closed forms of `spherical_jn` — nloc.py:90-131 (`none`: the function returns `NotImplemented`, nloc.py:46-47). -/
noncomputable def jnLarge (n : ℕ) (x : ℝ) : Option ℝ :=
  let sx := Real.sin x
  let cx := Real.cos x
  let x2 := x ^ 2
  let x3 := x * x2
  let x4 := x2 * x2
  let x5 := x2 * x3
  let x6 := x3 * x3
  match n with
  | 0 => some (sx / x)
  | 1 => some (sx / x2 - cx / x)
  | 2 => some (((3 / x - x) * sx - 3 * cx) / x2)
  | 3 => some (((15 / x - 6 * x) * sx + (x2 - 15) * cx) / x3)
  | 4 => some (((105 - 45 * x2 + x4) * sx + (10 * x3 - 105 * x) * cx) / x5)
  | 5 => some ((cx * (-1 - 945 / x4 + 105 / x2) + sx * (945 / x5 - 420 / x3 + 15 / x)) / x)
  | 6 => some ((cx * (-10395 / x5 + 1260 / x3 - 21 / x) + sx * (-1 + 10395 / x6 - 4725 / x4 + 210 / x2)) / x)
  | _ => none

/-- `spherical_jn(n, [x])` — nloc.py:43-131: the series up to and including the threshold (`searchsorted(…, "right")`), the
closed form beyond; `none` for `n > 6`. One element of an ascending array (nloc.py:50). -/
noncomputable def sphericalJn (n : ℕ) (x : ℝ) : Option ℝ :=
  if 6 < n then none else if x ≤ smallThr n then some (jnSmall n x) else jnLarge n x

/-! ## Interpolation table -/

/-- `DEL_Q` — nloc.py:28. -/
noncomputable def delQ : ℝ := 1 / 100

/-- `numq = int(np.ceil(np.sqrt(2 * ecut) / DEL_Q + 4))` — nloc.py:185. -/
noncomputable def numq (ecut : ℝ) : ℕ := (⌈Real.sqrt (2 * ecut) / delQ + 4⌉).toNat

/-- `np.rint`: round to the nearest integer, ties to even — nloc.py:257. -/
noncomputable def rint (x : ℝ) : ℤ :=
  if Int.fract x < 1 / 2 then ⌊x⌋
  else if 1 / 2 < Int.fract x then ⌊x⌋ + 1
  else if ⌊x⌋ % 2 = 0 then ⌊x⌋ else ⌊x⌋ + 1

/-- Four-point Lagrange interpolation of the table at `q` — nloc.py:257-292 (without the prefactor); `IndexError` if the
last of the four points is outside the table. -/
noncomputable def interp (table : ℕ → ℝ) (num : ℕ) (q : ℝ) : Except PyErr ℝ :=
  let i := (rint (q / delQ)).toNat
  let x0 := q / delQ - rint (q / delQ)
  let x1 := x0 - 1
  let x2 := x0 - 2
  let x3 := x0 - 3
  if i + 3 < num then
    .ok (table (i + 0) * x1 * x2 * x3 / ((0 - 1) * (0 - 2) * (0 - 3)) + table (i + 1) * x0 * x2 * x3 / ((1 - 0) * (1 - 2) * (1 - 3))
      + table (i + 2) * x0 * x1 * x3 / ((2 - 0) * (2 - 1) * (2 - 3)) + table (i + 3) * x0 * x1 * x2 / ((3 - 0) * (3 - 1) * (3 - 2)))
  else .error .index

/-! ## Projectors -/

/-- `vkb_idxbeta` — nloc.py:201-204 (`range(-l, l+1)` has `2l+1` elements). -/
def vkbBeta (beta_l : List ℕ) : List ℕ := beta_l.zipIdx.flatMap fun p => List.replicate (2 * p.1 + 1) p.2

/-- `vkb_l` — nloc.py:206-209. -/
def vkbL (beta_l : List ℕ) : List ℕ := beta_l.flatMap fun l => List.replicate (2 * l + 1) l

/-- `vkb_m` — nloc.py:211-218. -/
def vkbM (beta_l : List ℕ) : List ℤ :=
  beta_l.flatMap fun l => (List.range (2 * l + 1)).map fun i => (((i + 1) / 2 : ℕ) : ℤ) * (-1) ^ (i % 2)

/-- Angular part written into one row: the real combination of `Y(l, |m|)` — nloc.py:297-308. -/
inductive Ang
  | zero
  | imag (m : ℕ)
  | real (m : ℕ)
  deriving DecidableEq, Repr

/-- The rows of `l_vkb_atom` in the order they are written: beta index and angular part — nloc.py:264, 295-309. -/
def rowTags (beta_l : List ℕ) : List (ℕ × Ang) :=
  beta_l.zipIdx.flatMap fun p => (List.range (p.1 + 1)).flatMap fun m =>
    if m = 0 then [(p.2, Ang.zero)] else [(p.2, Ang.imag m), (p.2, Ang.real m)]

/-- One row of `l_vkb_atom` at one `G+k`; `Y l m` is `sph_harm_y(l, m, θ, φ)` there, `beta` the interpolated radial part —
nloc.py:297-308. -/
noncomputable def rowVal (beta_l : List ℕ) (Y : ℕ → ℕ → ℂ) (beta : ℕ → ℝ) (t : ℕ × Ang) : ℂ :=
  match t.2 with
  | .zero => Y (beta_l.getD t.1 0) 0 * beta t.1
  | .imag m => -Real.sqrt 2 * (-1) ^ m * (Y (beta_l.getD t.1 0) m).im * beta t.1
  | .real m => -Real.sqrt 2 * (-1) ^ m * (Y (beta_l.getD t.1 0) m).re * beta t.1

/-- `dij_atom` — nloc.py:312-322. -/
noncomputable def dijAtom (beta_l : List ℕ) (dij : ℕ → ℕ → ℝ) (i1 i2 : ℕ) : ℝ :=
  if (vkbL beta_l).getD i1 0 = (vkbL beta_l).getD i2 0 ∧ (vkbM beta_l).getD i1 0 = (vkbM beta_l).getD i2 0 then
    dij ((vkbBeta beta_l).getD i1 0) ((vkbBeta beta_l).getD i2 0)
  else 0

/-- A species with all its projectors: `at` atoms, `nv` projectors per atom. Rows of the projector array are numbered
`iat * nv + i`. -/
structure Proj (n : ℕ) where
  num : ℕ
  vkb : ℕ → Fin n → ℂ
  dij : ℕ → ℕ → ℂ

/-- `gen_vkb_dij`, projectors and `dij` of all atoms — nloc.py:324-341. `tau iat` are the crystal coordinates of the atoms,
`gk j` those of `G+k`; `atom i j` is `l_vkb_atom`. -/
noncomputable def genVkbDij {n : ℕ} (nat nv : ℕ) (tau : ℕ → Fin 3 → ℝ) (gk : Fin n → Fin 3 → ℝ) (atom : ℕ → Fin n → ℂ)
    (l : ℕ → ℕ) (dijA : ℕ → ℕ → ℝ) : Proj n where
  num := nat * nv
  vkb := fun r j => Complex.exp (-(2 * Real.pi * Complex.I) * ((∑ a, tau (r / nv) a * gk j a : ℝ) : ℂ)) * atom (r % nv) j
    * (-(Complex.I ^ l (r % nv)))
  dij := fun r s => if r / nv = s / nv then (dijA (r % nv) (s % nv) : ℂ) else 0

/-- `vkb_diag` — nloc.py:327-331: accumulated over the atoms. -/
noncomputable def vkbDiag {n : ℕ} (nat nv : ℕ) (P : Proj n) (dijA : ℕ → ℕ → ℝ) (j : Fin n) : ℂ :=
  ∑ iat ∈ Finset.range nat, ∑ i ∈ Finset.range nv,
    P.vkb (iat * nv + i) j * ∑ i' ∈ Finset.range nv, (dijA i i' : ℂ) * conj (P.vkb (iat * nv + i') j)

/-- `gen_vkb_dij` for one species — nloc.py:226-349: radial parts `F ibeta j` (interpolated, nloc.py:266-292), angular parts from
`Y j l m`. -/
noncomputable def speciesProj {n : ℕ} (beta_l : List ℕ) (nat : ℕ) (tau : ℕ → Fin 3 → ℝ) (gk : Fin n → Fin 3 → ℝ)
    (Y : Fin n → ℕ → ℕ → ℂ) (F : ℕ → Fin n → ℝ) (dij : ℕ → ℕ → ℝ) : Proj n :=
  genVkbDij nat (vkbL beta_l).length tau gk
    (fun i j => rowVal beta_l (Y j) (fun b => F b j) ((rowTags beta_l).getD i (0, .zero)))
    (fun i => (vkbL beta_l).getD i 0) (dijAtom beta_l dij)

/-! ## Kohn-Sham Hamiltonian -/

open Verif.FFT in
/-- `psi.to_r()` of one wavefunction (the transforms of `GkSpace` are not normalised, gspace/gkspc.py:17). -/
noncomputable def wfR (drv : Driver) (d : Dims) (idx : List ℕ) (st : DrvState ℂ) (f : Fin idx.length → ℂ) : Fin d.size → ℂ :=
  fun r => (drv.g2r d (dftKern false d) false idx st (List.ofFn f)).2 r

open Verif.FFT in
/-- `psi_r.to_g()` of one wavefunction. -/
noncomputable def wfG (drv : Driver) (d : Dims) (idx : List ℕ) (st : DrvState ℂ) (u : Fin d.size → ℂ) : Fin idx.length → ℂ :=
  fun j => (drv.r2g d (dftKern true d) idx st (fun k => if h : k < d.size then u ⟨k, h⟩ else 0)).2.getD j 0

/-- Conversion of a number to single precision (`np.dtype("F")` is `complex64`): the nearest number with a significand of 24 bits, ties to even. Overflow
(above `2^128`) and denormal numbers (below `2^-126`) are not modelled. -/
noncomputable def f4 (x : ℝ) : ℝ :=
  if x = 0 then 0 else (rint (x * (2 : ℝ) ^ (23 - Int.log 2 |x|)) : ℝ) * (2 : ℝ) ^ (Int.log 2 |x| - 23)

/-- Real and imaginary part are converted separately. -/
noncomputable def c8 (z : ℂ) : ℂ := ⟨f4 z.re, f4 z.im⟩

/-- The array library: `numpy` or `cupy`. -/
inductive Device
  | cpu
  | gpu

/-- What becomes of the array `out` that `zgemm` is to add to: `np.asarray(out, "F")` converts it to the data type `F`, i.e. single precision (the second
parameter of `asarray` is the data type, not the memory order) — gemm_wrappers.py:92-94; the GPU wrapper passes it on — gemm_wrappers.py:127. -/
noncomputable def Device.keep : Device → ℂ → ℂ
  | .cpu => c8
  | .gpu => id

/-- One species' contribution: `proj = vkb.vdot(psi); proj = dij @ proj; hpsi.zgemm(vkb.data.T, proj.T, 0, 1, 1.0, hpsi.data.T, 1.0)`, i.e.
`hpsi = vkb.T @ proj + 1.0 * out` with `out` as in `Device.keep` — ksham.py:80-87, gemm_wrappers.py:81-110. Apart from that conversion arithmetic is exact. -/
noncomputable def applyProj (dev : Device) {n : ℕ} (P : Proj n) (psi hpsi : Fin n → ℂ) : Fin n → ℂ :=
  let proj := fun i => ∑ j, conj (P.vkb i j) * psi j
  let proj' := fun i => ∑ i' ∈ Finset.range P.num, P.dij i i' * proj i'
  fun j => dev.keep (hpsi j) + ∑ i ∈ Finset.range P.num, P.vkb i j * proj' i

open Verif.FFT in
/-- `KSHam.h_psi` for one wavefunction — ksham.py:66-87: kinetic energy `½|k+G|²` (ksham.py:29), local potential on the grid,
non-local projectors. -/
noncomputable def hPsi (dev : Device) (drv : Driver) (d : Dims) (idx : List ℕ) (st : DrvState ℂ) (gk2 : Fin idx.length → ℝ)
    (vloc : Fin d.size → ℂ) (nl : List (Proj idx.length)) (psi : Fin idx.length → ℂ) : Fin idx.length → ℂ :=
  let h0 := fun j => ((1 / 2 * gk2 j : ℝ) : ℂ) * psi j
  let h1 := fun j => h0 j + wfG drv d idx st (fun r => wfR drv d idx st psi r * vloc r) j
  nl.foldl (fun h P => applyProj dev P psi h) h1

/-- `vnl_diag`: the `vkb_diag` of the species added up — ksham.py:60-64. -/
noncomputable def vnlDiag {n : ℕ} (l : List (Fin n → ℂ)) (j : Fin n) : ℂ := (l.map fun f => f j).sum

end Verif.Nonloc
