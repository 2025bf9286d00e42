import Verif.Model.Pot
import Verif.Model.Loc
import Verif.Model.Mixing
import Verif.Model.Dist

/-!
# Model: potentials on distributed plane waves

The functions of `/repo/src/qtm/pot` and `/repo/src/qtm/dft/mixing/base.py` run by all processes of a plane-wave group on containers of `/repo/src/qtm/mpi/containers.py`: elementwise operations act on the
part of each process, transforms are collective, and a sum over the basis axis is followed by `Allreduce` (mpi/containers.py:63-92). Every process runs the same statements, so that the
collective calls match.
-/

namespace Verif.PotDist

open Verif.Pot Verif.Loc

/-- `has_g0` of the part of process `p` — gspace/base.py:148 with the vectors of mpi/gspace.py:107-113: its first vector is zero. -/
def hasG0 {V : Type} [DecidableEq V] [Zero V] (S : Dist.Setup) (gs : List V) (p : ℕ) : Bool := decide ((S.cutG p gs).head? = some 0)

/-- `hartree.compute` on all processes up to the transform — hartree.py:26-38: `v_g` on every process; the sum of line 35 is an `Allreduce`. `norm2 p`, `rho p` are the arrays of process `p`,
`npts` is `np.prod(gspc.grid_shape)`, the whole grid. -/
noncomputable def hartree (P : ℕ) (nan : ℂ) (norm2 : ℕ → List ℝ) (g0 : ℕ → Bool) (dv : ℝ) (npts : ℕ) (rho : ℕ → List (List ℂ)) : Except PyErr ((ℕ → List ℂ) × ℝ) :=
  match (List.range P).mapM fun p => checkRho (rho p) with
  | .error e => .error e
  | .ok _ =>
    let v := fun p => hartreeV nan (norm2 p) (g0 p) (rho p)
    .ok (v, ((1 / 2 : ℂ) * (∑ p ∈ Finset.range P, ∑ j ∈ Finset.range (norm2 p).length, (starRingEnd ℂ) (total (rho p) j) * (v p).getD j 0) * (dv / npts : ℝ)).re)

/-- The collective transforms, the Cartesian G-vectors of each process and the volume element: process `p` holds `lm p` grid points and `ln p` G-vectors. -/
structure DSpace (P : ℕ) (lm ln : Fin P → ℕ) where
  toR : (∀ p, Fin (ln p) → ℂ) → ∀ p, Fin (lm p) → ℂ
  toG : (∀ p, Fin (lm p) → ℂ) → ∀ p, Fin (ln p) → ℂ
  g : ∀ p, Fin 3 → Fin (ln p) → ℝ
  dv : ℝ

variable {P : ℕ} {lm ln : Fin P → ℕ}

/-- `fieldg_grad(f).to_r()` — pot/utils.py:21-26. -/
noncomputable def DSpace.gradR (S : DSpace P lm ln) (f : ∀ p, Fin (ln p) → ℂ) (c : Fin 3) : ∀ p, Fin (lm p) → ℂ :=
  S.toR fun p j => f p j * Complex.I * (S.g p c j : ℂ)

/-- `fieldg_div(h.to_g()).to_r()` — pot/utils.py:29-42. -/
noncomputable def DSpace.divR (S : DSpace P lm ln) (h : Fin 3 → ∀ p, Fin (lm p) → ℂ) : ∀ p, Fin (lm p) → ℂ :=
  S.toR fun p j => ∑ c, S.toG (h c) p j * (Complex.I * (S.g p c j : ℂ))

/-- `_get_sigma` — xc.py:61-92: the sums run over the Cartesian components, on each process alone. -/
noncomputable def sigma {ns : ℕ} (S : DSpace P lm ln) (rho : Fin ns → ∀ p, Fin (ln p) → ℂ) (h0 : 0 < ns) (p : Fin P) : ℕ → Fin (lm p) → ℝ :=
  fun k r =>
    let gr := fun (s : ℕ) (c : Fin 3) => if hs : s < ns then S.gradR (rho ⟨s, hs⟩) c p r else S.gradR (rho ⟨0, h0⟩) c p r
    match k with
    | 0 => (∑ c, gr 0 c * gr 0 c).re
    | 1 => (∑ c, gr 0 c * gr 1 c).re
    | _ => (∑ c, gr 1 c * gr 1 c).re

/-- A functional of libxc: it is evaluated point by point, for any number of points. -/
structure PointFunc (ns : ℕ) where
  family : Family
  zk : (Fin ns → ℝ) → Option (ℕ → ℝ) → ℝ
  vrho : (Fin ns → ℝ) → Option (ℕ → ℝ) → Fin ns → ℝ
  vsigma : (Fin ns → ℝ) → Option (ℕ → ℝ) → ℕ → ℝ

/-- The functional on an array of `m` points. -/
def PointFunc.on {ns : ℕ} (F : PointFunc ns) (m : ℕ) : XCFunc ns m where
  family := F.family
  run rho sig :=
    { zk := fun x => F.zk (rho x) (sig.map fun s k => s k x)
      vrho := fun i x => F.vrho (rho x) (sig.map fun s k => s k x) i
      vsigma := if F.family = .gga then some fun k x => F.vsigma (rho x) (sig.map fun s k => s k x) k else none }
  vsigma_iff r s := by by_cases h : F.family = .gga <;> simp [h]

/-- The vector field `h_r` — xc.py:178-183. -/
noncomputable def xcH {ns : ℕ} (S : DSpace P lm ln) (rho : Fin ns → ∀ p, Fin (ln p) → ℂ) (vs : ∀ p, ℕ → Fin (lm p) → ℝ) : Fin ns → Fin 3 → ∀ p, Fin (lm p) → ℂ :=
  fun s c p r =>
    if ns = 1 then 2 * (vs p 0 r : ℂ) * S.gradR (rho s) c p r
    else
      2 * (vs p (if s.1 = 0 then 0 else 2) r : ℂ) * S.gradR (rho s) c p r
        + (vs p 1 r : ℂ) * S.gradR (rho (if h : (1 - s.1) < ns then ⟨1 - s.1, h⟩ else s)) c p r

/-- One functional added to potential and energy — xc.py:164-186; `integrate_unitcell` sums over all processes. A functional without `vsigma` is a `KeyError` on every process. -/
noncomputable def xcAdd {ns : ℕ} (S : DSpace P lm ln) (rho : Fin ns → ∀ p, Fin (ln p) → ℂ) (needGrad : Bool) (out : ∀ p, XCOut ns (lm p))
    (acc : (Fin ns → ∀ p, Fin (lm p) → ℂ) × ℂ) : Except PyErr ((Fin ns → ∀ p, Fin (lm p) → ℂ) × ℂ) :=
  let v := fun s p r => acc.1 s p r + ((out p).vrho s r : ℂ)
  let en := acc.2 + (∑ p, ∑ r, ∑ s, S.toR (rho s) p r * ((out p).zk r : ℂ)) * (S.dv : ℂ)
  if needGrad = true then
    if ∃ p, (out p).vsigma = none then .error .key
    else .ok (fun s p r => v s p r - S.divR (xcH S rho (fun p => (out p).vsigma.getD fun _ _ => 0) s) p r, en)
  else .ok (v, en)

/-- `xc.compute` on all processes — xc.py:96-188. -/
noncomputable def xcCompute {ns : ℕ} (S : DSpace P lm ln) (h0 : 0 < ns) (exch corr : PointFunc ns) (rho : Fin ns → ∀ p, Fin (ln p) → ℂ) (core : ∀ p, Fin (ln p) → ℂ) :
    Except PyErr ((Fin ns → ∀ p, Fin (lm p) → ℂ) × ℝ) := do
  let needGrad : Bool := decide (exch.family = .gga ∨ corr.family = .gga)
  let inp := fun p => fun (r : Fin (lm p)) (s : Fin ns) => ‖S.toR (rho s) p r‖
  let aux := fun s p j => rho s p j + (1 / (ns : ℂ)) * core p j
  let sig := fun p => if needGrad then some (sigma S aux h0 p) else none
  let a1 ← xcAdd S rho needGrad (fun p => (exch.on (lm p)).run (inp p) (sig p)) (fun _ _ _ => 0, 0)
  let a2 ← xcAdd S rho needGrad (fun p => (corr.on (lm p)).run (inp p) (sig p)) a1
  pure (a2.1, a2.2.re)

/-- `MixModBase._dot` on all processes — mixing/base.py:37-53: both sums are `Allreduce`d; `g0 p` is `has_g0` of process `p`. -/
noncomputable def dot {s : ℕ} (fac tpiba : ℝ) (g0 : Fin P → Bool) (g2 : ∀ p, Fin (ln p) → ℝ) (a b : Fin s → ∀ p, Fin (ln p) → ℂ) : ℝ :=
  let ch1 := fun p i => ∑ k, a k p i
  let ch2 := fun p i => ∑ k, b k p i
  let dv := fun p (i : Fin (ln p)) => if g0 p ∧ i.val = 0 then (0 : ℂ) else (starRingEnd ℂ) (ch1 p i) * ch2 p i / (g2 p i : ℂ)
  let d := fac * (∑ p, ∑ i, dv p i).re
  if h : s = 2 then
    let up : Fin s := ⟨0, by omega⟩
    let dn : Fin s := ⟨1, by omega⟩
    d + fac * (∑ p, ∑ i, (starRingEnd ℂ) (a up p i - a dn p i) * (b up p i - b dn p i)).re / tpiba ^ 2
  else d

/-- The transforms of `DistGSpace` — mpi/gspace.py:136-192 (`Verif.Dist`), on processes in the states `st`. (A failing exchange would leave the arrays as they are, here zero; C22: none fails.) -/
noncomputable def distSpace (S : Dist.Setup) (st : ℕ → Dist.St ℂ) (g : ∀ p : Fin S.P, Fin 3 → Fin (S.cutG p S.idx).length → ℝ) (dv : ℝ) :
    DSpace S.P (fun p => S.nxl p * S.d.plane) (fun p => (S.cutG p S.idx).length) where
  toR f := fun p r =>
    match Dist.g2r S (FFT.dftKern false S.d) true st (fun q => if h : q < S.P then List.ofFn (f ⟨q, h⟩) else []) with
    | some (_, out) => out p r
    | none => 0
  toG u := fun p j =>
    match Dist.r2g S (FFT.dftKern true S.d) st (fun q k => if h : q < S.P then (if hk : k < S.nxl q * S.d.plane then u ⟨q, h⟩ ⟨k, hk⟩ else 0) else 0) with
    | some (_, out) => (out p).getD j 0
    | none => 0
  g := g
  dv := dv

end Verif.PotDist
