import Mathlib.Data.Real.Sqrt
import Mathlib.Algebra.Order.Floor.Ring
import Mathlib.Data.Real.Archimedean
import Mathlib.LinearAlgebra.Matrix.NonsingularInverse
import Mathlib.Analysis.Real.Pi.Bounds
import Verif.Model.GSpace

/-!
# Model of lattices (/repo/src/qtm/lattice.py)

Floating-point numbers are modelled as real numbers; the numpy linear algebra is exact.
-/

namespace Verif.Lattice

open Matrix

abbrev Vec := Fin 3 → ℝ
abbrev Mat := Matrix (Fin 3) (Fin 3) ℝ

/-- `TPI` — /repo/src/qtm/constants.py -/
noncomputable def TPI : ℝ := 2 * Real.pi

/-- The state of a `Lattice` — /repo/src/qtm/lattice.py:33-67. `unit` is `alat`
(`RealLattice`, lattice.py:260-263) or `tpiba` (`ReciLattice`, lattice.py:656-659). -/
structure Lat where
  unit : ℝ
  primvec : Mat
  primvecInv : Mat
  metric : Mat
  cellvol : ℝ

/-- `Lattice.__init__` — /repo/src/qtm/lattice.py:46-67; a singular matrix raises `ValueError`
(lattice.py:52-57). -/
noncomputable def mkLat (unit : ℝ) (primvec : Mat) : Except PyErr Lat :=
  open Classical in
  if primvec.det = 0 then .error .value
  else .ok { unit := unit, primvec := primvec, primvecInv := primvec⁻¹,
             metric := primvecᵀ * primvec, cellvol := |primvec.det| }

/-- `cart2cryst` — /repo/src/qtm/lattice.py:74-94 (one vector of the array) -/
noncomputable def Lat.cart2cryst (L : Lat) (v : Vec) : Vec := L.primvecInv.mulVec v

/-- `cryst2cart` — /repo/src/qtm/lattice.py:96-121 -/
noncomputable def Lat.cryst2cart (L : Lat) (v : Vec) : Vec := L.primvec.mulVec v

/-- `dot(coords="cryst")` — /repo/src/qtm/lattice.py:161-162 -/
noncomputable def Lat.dotCryst (L : Lat) (u v : Vec) : ℝ := u ⬝ᵥ (L.metric.mulVec v)

/-- `dot(coords="cart")` — /repo/src/qtm/lattice.py:163-164 -/
def dotCart (u v : Vec) : ℝ := u ⬝ᵥ v

/-- `dot(coords="alat")` — /repo/src/qtm/lattice.py:480-481 (and "tpiba" for `ReciLattice`) -/
def Lat.dotUnit (L : Lat) (u v : Vec) : ℝ := (u ⬝ᵥ v) * L.unit ^ 2

/-- `norm2(coords="cryst")` — /repo/src/qtm/lattice.py:199-200 -/
noncomputable def Lat.norm2Cryst (L : Lat) (v : Vec) : ℝ := ∑ i, v i * (L.metric.mulVec v) i

/-- `cart2alat` / `cart2tpiba` — /repo/src/qtm/lattice.py:386, 740 -/
noncomputable def Lat.cart2unit (L : Lat) (v : Vec) : Vec := fun i => v i / L.unit

/-- `alat2cart` / `tpiba2cart` — /repo/src/qtm/lattice.py:406, 744 -/
noncomputable def Lat.unit2cart (L : Lat) (v : Vec) : Vec := fun i => v i * L.unit

/-- `cryst2alat` / `cryst2tpiba` — /repo/src/qtm/lattice.py:426, 749 -/
noncomputable def Lat.cryst2unit (L : Lat) (v : Vec) : Vec := fun i => L.cryst2cart v i / L.unit

/-- `alat2cryst` / `tpiba2cryst` — /repo/src/qtm/lattice.py:446, 754 -/
noncomputable def Lat.unit2cryst (L : Lat) (v : Vec) : Vec := fun i => L.cart2cryst v i * L.unit

/-- `ReciLattice.from_reallat` — /repo/src/qtm/lattice.py:714-729 -/
noncomputable def fromReallat (L : Lat) : Except PyErr Lat :=
  mkLat (TPI / L.unit) (TPI • L.primvecInvᵀ)

/-- `RealLattice.from_recilat` — /repo/src/qtm/lattice.py:346-361 -/
noncomputable def fromRecilat (L : Lat) : Except PyErr Lat :=
  mkLat (TPI / L.unit) (TPI • L.primvecInvᵀ)

/-- `np.cross` -/
def cross (u v : Vec) : Vec :=
  ![u 1 * v 2 - u 2 * v 1, u 2 * v 0 - u 0 * v 2, u 0 * v 1 - u 1 * v 0]

/-- `np.linalg.norm` -/
noncomputable def norm (v : Vec) : ℝ := Real.sqrt (v ⬝ᵥ v)

/-- primitive vector `i`: column `i` of `primvec` (`axes_cart`, /repo/src/qtm/lattice.py:69-72) -/
def Lat.axis (L : Lat) (i : Fin 3) : Vec := fun j => L.primvec j i

/-- Spacing of lattice planes — /repo/src/qtm/gspace/gspc.py:69-71. -/
noncomputable def Lat.spacing (L : Lat) (i : Fin 3) : ℝ :=
  L.cellvol / match i with
    | 0 => norm (cross (L.axis 1) (L.axis 2))
    | 1 => norm (cross (L.axis 0) (L.axis 2))
    | 2 => norm (cross (L.axis 0) (L.axis 1))

/-- One entry of `minimal_grid_shape` — /repo/src/qtm/gspace/gspc.py:65, 72. -/
noncomputable def minGridLen (L : Lat) (ecut : ℝ) (i : Fin 3) : ℕ :=
  (2 * ⌊Real.sqrt (2 * ecut) / L.spacing i⌋ + 1).toNat

/-- A G-vector as a real coordinate vector. -/
def toVec (g : GSpace.GVec) : Vec := ![(g.1 : ℝ), (g.2.1 : ℝ), (g.2.2 : ℝ)]

/-- `GSpace(recilat, ecut)` with the default grid — /repo/src/qtm/gspace/gspc.py:91-151: the grid is
`optimal_grid_shape(minimal_grid_shape(...))`. `fuel` bounds the search for the grid size. -/
noncomputable def defaultGSpace (L : Lat) (lenKey : GSpace.GVec → ℤ) (ecut : ℝ) (fuel : ℕ) :
    Option (Except PyErr GSpace.Base) :=
  open Classical in
  if ecut ≤ 0 then some (.error .value)
  else
    (GSpace.optimalLen fuel (minGridLen L ecut 0)).bind fun n1 =>
    (GSpace.optimalLen fuel (minGridLen L ecut 1)).bind fun n2 =>
    (GSpace.optimalLen fuel (minGridLen L ecut 2)).map fun n3 =>
      GSpace.mkGSpace (fun g => L.norm2Cryst (toVec g)) lenKey (2 * ecut) ⟨n1, n2, n3⟩

/-- `get_mesh_coords` for one mesh point and a given array origin, in crystal coordinates
— /repo/src/qtm/lattice.py:596-604 (`np.rint` is modelled by `round`, which differs only at exact
half-integers). -/
noncomputable def meshCoord (n i : ℕ) (origin : ℝ) : ℝ :=
  let r := (i : ℝ) / n - origin
  r - round r

end Verif.Lattice
