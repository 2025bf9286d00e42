import Mathlib.Analysis.Complex.Basic
import Mathlib.Analysis.SpecialFunctions.Pow.Complex
import Mathlib.Algebra.BigOperators.Fin
import Verif.Model.Containers

/-!
# Model of the wavefunction containers: norms, normalisation, densities, overlaps

/repo/src/qtm/containers/wavefun.py, /repo/src/qtm/containers/field.py:95-113, /repo/src/qtm/mpi/containers.py:164-178. Arithmetic is exact; a division by zero (numpy: `nan`
with a warning) gives `0` here, all theorems exclude it.
-/

namespace Verif.Wavefun

open Verif.Containers
open scoped ComplexConjugate

/-- Shapes that numpy can broadcast to `shape`, dimension by dimension. -/
def BcOk (b shape : List ℕ) : Prop := List.Forall₂ (fun m n => m = 1 ∨ m = n) b shape

instance (b shape : List ℕ) : Decidable (BcOk b shape) := by unfold BcOk; infer_instance

/-- Index into a broadcast array: axes of length one are repeated. -/
def bcIdx : List ℕ → List ℕ → List ℕ
  | m :: b, i :: t => (if m = 1 then 0 else i) :: bcIdx b t
  | _, _ => []

/-- `a /= b` for arrays: `b` is broadcast to the shape of `a` (missing leading axes have length one), `ValueError` if that is impossible. -/
noncomputable def idiv (a b : Arr ℂ) : Except PyErr (Arr ℂ) :=
  if a.shape.length < b.shape.length then .error .value
  else
    let full := List.replicate (a.shape.length - b.shape.length) 1 ++ b.shape
    if BcOk full a.shape then
      .ok { shape := a.shape, get := fun i => a.get i / b.get ((bcIdx full i).drop (a.shape.length - b.shape.length)) }
    else .error .value

/-- `WavefunGType.norm2` — wavefun.py:91-100: one number per wavefunction (`lead` are all axes but the last). -/
noncomputable def norm2 (lead : List ℕ) (n : ℕ) (a : Arr ℂ) : Arr ℂ where
  shape := lead
  get := fun i => ∑ j ∈ Finset.range n, conj (a.get (i ++ [j])) * a.get (i ++ [j])

/-- `norm2` with the coefficients distributed over `P` processes: the local sums are added up with `Allreduce` — wavefun.py:97-99. -/
noncomputable def distNorm2 (lead : List ℕ) (P : ℕ) (sz : ℕ → ℕ) (loc : ℕ → Arr ℂ) : Arr ℂ where
  shape := lead
  get := fun i => ∑ p ∈ Finset.range P, (norm2 lead (sz p) (loc p)).get i

/-- `np.sqrt` of a complex array: principal root — wavefun.py:104. -/
noncomputable def csqrt (a : Arr ℂ) : Arr ℂ where
  shape := a.shape
  get := fun i => a.get i ^ (1 / 2 : ℂ)

/-- The key `[:, np.newaxis]`. -/
def colKey : List Item := [Item.all, .newaxis]

/-- `WavefunGType.normalize` — wavefun.py:106-108. -/
noncomputable def normalize (lead : List ℕ) (n : ℕ) (a : Arr ℂ) : Except PyErr (Arr ℂ) := do
  let nrm ← index (csqrt (norm2 lead n a)) colKey
  idiv a nrm

/-- `WavefunRType.get_density(normalize)` — wavefun.py:198-219: `|psi|²` with the spin components on an axis of their own, divided by the integral over the cell
(`integrate_unitcell`, field.py:95-113: the sum over the last axis times the volume element `dv`). That the integral is wrapped as a field when the number of spin
components equals the number of grid points (buffer.py:335) is not modelled. -/
noncomputable def density (lead : List ℕ) (ns nr : ℕ) (a : Arr ℂ) : Arr ℂ where
  shape := lead ++ [ns, nr]
  get := fun i =>
    let l := i.take lead.length
    let x := l ++ [i.getD lead.length 0 * nr + i.getD (lead.length + 1) 0]
    conj (a.get x) * a.get x

/-- `FieldRType.integrate_unitcell()` — field.py:95-113. -/
noncomputable def integrate (lead : List ℕ) (nr : ℕ) (dv : ℝ) (a : Arr ℂ) : Arr ℂ where
  shape := lead
  get := fun i => (∑ r ∈ Finset.range nr, a.get (i ++ [r])) * dv

/-- see `density` -/
noncomputable def getDensity (lead : List ℕ) (ns nr : ℕ) (dv : ℝ) (a : Arr ℂ) (normalize : Bool) : Except PyErr (Arr ℂ) := do
  let den := density lead ns nr a
  if normalize then
    let int ← index (integrate (lead ++ [ns]) nr dv den) colKey
    idiv den int
  else pure den

/-- Position of an index in row-major order. -/
def ravel : List ℕ → List ℕ → ℕ
  | _ :: s, i :: t => i * s.prod + ravel s t
  | _, _ => 0

/-- Index of a position in row-major order. -/
def unravel : List ℕ → ℕ → List ℕ
  | [], _ => []
  | _ :: s, k => k / s.prod :: unravel s (k % s.prod)

/-- `a.reshape(shape)` for a row-major array. -/
def reshape {α : Type*} (a : Arr α) (shape : List ℕ) : Arr α where
  shape := shape
  get := fun i => a.get (unravel a.shape (ravel shape i))

/-- `WavefunGType.vdot(ket)` — wavefun.py:110-155 (without `slice_partial_basis`): both are flattened to matrices, `zgemm` with the hermitian transpose of the first gives the matrix of
products, which is brought into the shapes of the two. -/
noncomputable def vdotArr (lb lk : List ℕ) (n : ℕ) (bra ket : Arr ℂ) : Arr ℂ :=
  let b := reshape bra [lb.prod, n]
  let k := reshape ket [lk.prod, n]
  let m : Arr ℂ := { shape := [lb.prod, lk.prod], get := fun i => ∑ g ∈ Finset.range n, conj (b.get [i.getD 0 0, g]) * k.get [i.getD 1 0, g] }
  reshape m (if lb = [] then lk else if lk = [] then lb else lb ++ lk)

end Verif.Wavefun
