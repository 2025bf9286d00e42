import Verif.Model.LatArr
import Verif.Model.TDDFT

/-!
# Model of the mesh of a unit cell (/repo/src/qtm/lattice.py:557-613), the kick and the dipole (/repo/src/qtm/tddft_gamma/optical.py:46-150)

Numbers are real, arithmetic is exact; `np.rint` rounds ties to even. Arrays are given by their entries (see `Verif.LatArr` for the conversions of whole arrays).
-/

namespace Verif.Mesh

open Verif.Lattice

/-- An argument `n1`, `n2`, `n3`: a Python integer or anything else (a float, a numpy integer). -/
inductive Num
  | int (n : ℤ)
  | other

/-- The argument `origin`: a tuple (as documented) or a numpy array. -/
inductive Origin
  | tuple (v : Vec)
  | array (v : Vec)

/-- The argument `coords`. -/
inductive Coords
  | cryst | cart | alat | other
  deriving DecidableEq

/-- What is returned: `None` or the array `(3, n1, n2, n3)` of coordinates. -/
inductive Out
  | none
  | mesh (n : Fin 3 → ℕ) (point : (Fin 3 → ℕ) → Vec)

/-- `not isinstance(n, int) or n < 1` — lattice.py:590-593. -/
def checkNum : Num → Except PyErr ℕ
  | .int n => if n < 1 then .error .value else .ok n.toNat
  | .other => .error .value

/-- `r_cryst` of one mesh point — lattice.py:594-602: `i / n - origin`, then the nearest integer is subtracted. -/
noncomputable def crystPoint (n : Fin 3 → ℕ) (o : Vec) (i : Fin 3 → ℕ) : Vec := fun a => ((i a : ℝ) / n a - o a) - (Nonloc.rint ((i a : ℝ) / n a - o a) : ℝ)

/-- The entries of the origin and whether it is an array when `.reshape` is called on it — lattice.py:597-601: the conversions return arrays, a tuple of crystal coordinates (or with an unknown unit name) stays a tuple. -/
noncomputable def originCryst (L : Lat) (c : Coords) : Origin → Vec × Bool
  | .tuple v => match c with
    | .cart => (L.cart2cryst v, true)
    | .alat => (L.unit2cryst v, true)
    | _ => (v, false)
  | .array v => match c with
    | .cart => (L.cart2cryst v, true)
    | .alat => (L.unit2cryst v, true)
    | _ => (v, true)

/-- `RealLattice.get_mesh_coords(n1, n2, n3, coords, origin)` — lattice.py:557-610. -/
noncomputable def getMesh (L : Lat) (n1 n2 n3 : Num) (c : Coords) (o : Origin) : Except PyErr Out :=
  match checkNum n1 with
  | .error e => .error e
  | .ok m1 => match checkNum n2 with
    | .error e => .error e
    | .ok m2 => match checkNum n3 with
      | .error e => .error e
      | .ok m3 =>
        if (originCryst L c o).2 then
          match c with
          | .cryst => .ok (.mesh ![m1, m2, m3] fun i => crystPoint ![m1, m2, m3] (originCryst L c o).1 i)
          | .cart => .ok (.mesh ![m1, m2, m3] fun i => L.cryst2cart (crystPoint ![m1, m2, m3] (originCryst L c o).1 i))
          | .alat => .ok (.mesh ![m1, m2, m3] fun i => L.cryst2unit (crystPoint ![m1, m2, m3] (originCryst L c o).1 i))
          | .other => .ok .none
        else .error .attribute

/-! ## Kick and dipole -/

open Verif.FFT (Driver Dims DrvState)
open Verif.Nonloc (wfR wfG)

/-- `evc_r *= exp(-1j * kick_strength * rmesh_cart[direction])`, then `gkwfn.r2g` — optical.py:131-150, one band, one spin component; `x` is the coordinate of the grid points in the direction of the kick. -/
noncomputable def kick (drv : Driver) (d : Dims) (idx : List ℕ) (st : DrvState ℂ) (kap : ℝ) (x : Fin d.size → ℝ) (psi : Fin idx.length → ℂ) : Fin idx.length → ℂ :=
  wfG drv d idx st fun r => wfR drv d idx st psi r * Complex.exp (-Complex.I * kap * x r)

/-- `WavefunG.normalize()` of one band — wavefun.py:108-110. -/
noncomputable def normalise {n : ℕ} (psi : Fin n → ℂ) : Fin n → ℂ := fun j => psi j / (Real.sqrt (∑ i, Complex.normSq (psi i)) : ℂ)

/-- `k_weight * compute_rho(ret_raw=True)` on the grid — kswfn.py:144-157, optical.py:123-125: bands are normalised first. `to_g()` and back is the identity on densities within the sphere and is left out. -/
noncomputable def density (drv : Driver) (d : Dims) (idx : List ℕ) (st : DrvState ℂ) {nb : ℕ} (kw vol : ℝ) (occ : Fin nb → ℝ) (evc : Fin nb → Fin idx.length → ℂ) (r : Fin d.size) : ℝ :=
  kw * ((∑ b, occ b * Complex.normSq (wfR drv d idx st (normalise (evc b)) r)) / vol)

/-- `compute_dipole` — optical.py:88-117, containers/field.py:95-114: `(rho - rho_start) * rmesh` summed over the grid (last axis), then over the spin components (axis 1), times the volume of a grid cell. -/
def dipole {ns N : ℕ} (dv : ℝ) (x : Fin N → Vec) (rho rho0 : Fin ns → Fin N → ℝ) (a : Fin 3) : ℝ := (∑ s, ∑ r, (rho s r - rho0 s r) * x r a) * dv

/-- `["x", "y", "z"].index(kick_direction)` after the check — optical.py:52-56, 135. -/
def direction (s : String) : Except PyErr (Fin 3) := if s = "x" then .ok 0 else if s = "y" then .ok 1 else if s = "z" then .ok 2 else .error .value

end Verif.Mesh
