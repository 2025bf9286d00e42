import Verif.Model.PotDist
import Verif.Model.Nonloc
import Verif.Model.KSWfn
import Verif.Model.Davidson
import Verif.Model.EigPrec
import Mathlib.Analysis.InnerProductSpace.PiL2

/-!
# Model: Hamiltonian, density and eigen-solver on distributed plane waves

`KSHam.h_psi`, `KSWfn.compute_rho` and the Davidson solver run by the processes of a plane-wave group (`DistGkSpace`, /repo/src/qtm/mpi/gspace.py:345-369) on `DistWavefunG` containers:
transforms are collective, `vdot` and `norm2` end with `Allreduce` (mpi/containers.py:182-186, containers/wavefun.py:91-101), everything else acts on the part of each process.
-/

namespace Verif.HamDist

open Verif.Nonloc Verif.Dist
open scoped ComplexConjugate

/-- Number of plane waves of process `p`. -/
abbrev ln (S : Setup) (p : Fin S.P) : ℕ := (S.cutG p S.idx).length

/-- Number of grid points of process `p`. -/
abbrev lm (S : Setup) (p : Fin S.P) : ℕ := S.nxl p * S.d.plane

/-- `psi.to_r()` of one wavefunction on all processes — mpi/gspace.py:165-192, without normalisation (mpi/gspace.py:39, gspace/gkspc.py:17). -/
noncomputable def wfR (S : Setup) (st : ℕ → Dist.St ℂ) (f : ∀ p, Fin (ln S p) → ℂ) (p : Fin S.P) (r : Fin (lm S p)) : ℂ :=
  match Dist.g2r S (FFT.dftKern false S.d) false st (fun q => if h : q < S.P then List.ofFn (f ⟨q, h⟩) else []) with
  | some (_, out) => out p r
  | none => 0

/-- `psi_r.to_g()` of one wavefunction on all processes — mpi/gspace.py:137-163. -/
noncomputable def wfG (S : Setup) (st : ℕ → Dist.St ℂ) (u : ∀ p, Fin (lm S p) → ℂ) (p : Fin S.P) (j : Fin (ln S p)) : ℂ :=
  match Dist.r2g S (FFT.dftKern true S.d) st (fun q k => if h : q < S.P then (if hk : k < S.nxl q * S.d.plane then u ⟨q, h⟩ ⟨k, hk⟩ else 0) else 0) with
  | some (_, out) => (out p).getD j 0
  | none => 0

variable {P : ℕ} {l : Fin P → ℕ}

/-- `DistWavefunG.vdot` of one bra and one ket — mpi/containers.py:182-186. -/
noncomputable def vdot (bra ket : ∀ p, Fin (l p) → ℂ) : ℂ := ∑ p, ∑ j, conj (bra p j) * ket p j

/-- `norm2()` — containers/wavefun.py:91-101. -/
noncomputable def norm2 (f : ∀ p, Fin (l p) → ℂ) : ℝ := ∑ p, ∑ j, Complex.normSq (f p j)

/-- `normalize()` — wavefun.py:103-110. -/
noncomputable def normalize (f : ∀ p, Fin (l p) → ℂ) : ∀ p, Fin (l p) → ℂ := fun p j => f p j / (Real.sqrt (norm2 f) : ℂ)

/-- One species' contribution — ksham.py:81-87: `vkb.vdot(l_psi)` is collective, `dij @ proj` and `zgemm` are local. `Q p` are the projectors of process `p` (its part of the plane waves). -/
noncomputable def applyProj (dev : Device) (Q : ∀ p, Proj (l p)) (psi hpsi : ∀ p, Fin (l p) → ℂ) : ∀ p, Fin (l p) → ℂ := fun p =>
  let proj := fun i => vdot (fun q => (Q q).vkb i) psi
  let proj' := fun i => ∑ i' ∈ Finset.range (Q p).num, (Q p).dij i i' * proj i'
  fun j => dev.keep (hpsi p j) + ∑ i ∈ Finset.range (Q p).num, (Q p).vkb i j * proj' i

/-- `KSHam.h_psi` for one wavefunction on all processes — ksham.py:66-87. (The two transforms start from the same buffers here; C22: results do not depend on the history of the buffers.) -/
noncomputable def hPsi (dev : Device) (S : Setup) (st : ℕ → Dist.St ℂ) (gk2 : ∀ p, Fin (ln S p) → ℝ) (vloc : ∀ p, Fin (lm S p) → ℂ) (nl : List (∀ p, Proj (ln S p)))
    (psi : ∀ p, Fin (ln S p) → ℂ) : ∀ p, Fin (ln S p) → ℂ :=
  let h0 := fun p j => ((1 / 2 * gk2 p j : ℝ) : ℂ) * psi p j
  let h1 := fun p j => h0 p j + wfG S st (fun p r => wfR S st psi p r * vloc p r) p j
  nl.foldl (fun h Q => applyProj dev Q psi h) h1

/-! ## Density -/

/-- `np.vdot(wfn, wfn)` of band `b` with `Allreduce` — containers/wavefun.py:91-101. -/
noncomputable def ksNorm2 (K : Fin P → KSWfn.KS) (b : ℕ) : ℝ := ∑ p, (K p).norm2 b

/-- `normalize()` of the rows with `sel b` — wavefun.py:108-110, on all processes. -/
noncomputable def ksNormalize (K : Fin P → KSWfn.KS) (sel : ℕ → Bool) (p : Fin P) : KSWfn.KS :=
  { K p with evc := fun b i => if sel b then (K p).evc b i / (Real.sqrt (ksNorm2 K b) : ℂ) else (K p).evc b i }

/-- `wfn.to_r().get_density(normalize=False)` on process `p` — wavefun.py:76-79, 213-219. -/
noncomputable def density (S : Setup) (st : ℕ → Dist.St ℂ) (K : Fin S.P → KSWfn.KS) (b s : ℕ) (p : Fin S.P) (r : Fin (lm S p)) : ℂ :=
  let psi := wfR S st (fun q i => (K q).evc b (s * (K q).numg + i)) p r
  conj psi * psi

/-- `KSWfn.compute_rho(ibnd, ret_raw=True)` on process `p` — kswfn.py:144-154. -/
noncomputable def computeRho (S : Setup) (st : ℕ → Dist.St ℂ) (vol : ℝ) (K : Fin S.P → KSWfn.KS) (sel : KSWfn.Sel) (p : Fin S.P) : Except PyErr (KSWfn.KS × (ℕ → Fin (lm S p) → ℂ)) :=
  let bands := sel.bands (K p).nb
  if bands.all (fun b => decide (b < (K p).nb)) = false then .error .index else
  let K' := match sel with
    | .slice _ _ => ksNormalize K fun b => decide (b ∈ bands)
    | .index _ => K
  if bands = [] then .error .attribute
  else .ok (K' p, fun s r => (bands.map fun b => ((K p).occ b : ℂ) * density S st K' b s p r).sum / (vol : ℂ))

/-! ## Eigen-solver -/

/-- Wavefunctions distributed over the processes: the inner product is `vdot` (a sum over all processes). -/
abbrev DWf (S : Setup) := PiLp 2 fun p : Fin S.P => EuclideanSpace ℂ (Fin (ln S p))

/-- The parts of a distributed wavefunction. -/
def DWf.parts {S : Setup} (f : DWf S) (p : Fin S.P) : Fin (ln S p) → ℂ := fun j => f p j

/-- The distributed wavefunction with given parts. -/
noncomputable def DWf.mk {S : Setup} (f : ∀ p, Fin (ln S p) → ℂ) : DWf S := WithLp.toLp 2 fun p => WithLp.toLp 2 (f p)

/-- `apply_g_psi` for one plane wave — davidson.py:71-77; `diag` is the entry of `ham_diag` (davidson.py:66-69), a real number. -/
noncomputable def gPsi (diag evl : ℝ) (z : ℂ) : ℂ := z / ((EigPrec.denom diag evl * 2 : ℝ) : ℂ)

/-- The solver on all processes of a plane-wave group — davidson.py:21-369: `ksham.h_psi`, `normalize` and `vdot` are collective, the preconditioner (`diag p` is `ham_diag` of process `p`,
davidson.py:66-69) acts on each part; the reduced matrices are the results of `Allreduce`, and the reduced eigenpairs and convergence flags are broadcast (davidson.py:250-260, 313-315), so that one
copy of them stands for all processes. -/
noncomputable def davCfg (dev : Device) (S : Setup) (st : ℕ → Dist.St ℂ) (gk2 : ∀ p, Fin (ln S p) → ℝ) (vloc : ∀ p, Fin (lm S p) → ℂ) (nl : List (∀ p, Proj (ln S p))) (diag : ∀ p, Fin (ln S p) → ℝ)
    (numeig numwork maxiter : ℕ) (thr : ℝ) (eigh : ℕ → (ℕ → ℕ → ℂ) → (ℕ → ℕ → ℂ) → Except PyErr ((ℕ → ℕ → ℂ) × (ℕ → ℝ))) : Davidson.Cfg (DWf S) where
  numeig := numeig
  numwork := numwork
  maxiter := maxiter
  thr := thr
  H f := DWf.mk (hPsi dev S st gk2 vloc nl f.parts)
  norm f := DWf.mk (normalize f.parts)
  precond f e := DWf.mk fun p j => gPsi (diag p j) e (f.parts p j)
  eigh := eigh

/-- The serial solver with the Hamiltonian of `Verif.Nonloc` — davidson.py:21-369, for comparison. -/
noncomputable def serCfg (dev : Device) (drv : FFT.Driver) (d : FFT.Dims) (idx : List ℕ) (sst : FFT.DrvState ℂ) (gk2 : Fin idx.length → ℝ) (vloc : Fin d.size → ℂ) (nl : List (Proj idx.length)) (diag : Fin idx.length → ℝ)
    (numeig numwork maxiter : ℕ) (thr : ℝ) (eigh : ℕ → (ℕ → ℕ → ℂ) → (ℕ → ℕ → ℂ) → Except PyErr ((ℕ → ℕ → ℂ) × (ℕ → ℝ))) : Davidson.Cfg (EuclideanSpace ℂ (Fin idx.length)) where
  numeig := numeig
  numwork := numwork
  maxiter := maxiter
  thr := thr
  H f := WithLp.toLp 2 (Nonloc.hPsi dev drv d idx sst gk2 vloc nl fun j => f j)
  norm f := WithLp.toLp 2 fun j => f j / (Real.sqrt (∑ j, Complex.normSq (f j)) : ℂ)
  precond f e := WithLp.toLp 2 fun j => gPsi (diag j) e (f j)
  eigh := eigh

end Verif.HamDist
